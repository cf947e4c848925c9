{
 "claims": [
  {
   "property": "C01",
   "status": "proved",
   "theorems": [
    "Verif.JobQueue.C01_conservation",
    "Verif.JobQueue.C01_handing_out",
    "Verif.JobQueue.C01_no_ub"
   ],
   "note": "every interleaving of the LTS model of JobQueue"
  },
  {
   "property": "C02",
   "status": "proved",
   "theorems": [
    "Verif.JobQueue.C02_wait_returns_idle"
   ],
   "note": ""
  },
  {
   "property": "C03",
   "status": "proved",
   "theorems": [
    "Verif.JobQueue.C03_parallelism"
   ],
   "note": ""
  },
  {
   "property": "C04",
   "status": "proved",
   "theorems": [
    "Verif.JobQueue.C04_stop_bound",
    "Verif.JobQueue.C04_stop_final"
   ],
   "note": ""
  },
  {
   "property": "C05",
   "status": "partial",
   "theorems": [
    "Verif.JobQueue.C05_negation",
    "Verif.JobQueue.C05_partial"
   ],
   "note": "the claim is false of the code (refuted); the part that holds is proved"
  },
  {
   "property": "C06",
   "status": "partial",
   "theorems": [
    "Verif.JobQueue.C06_negation",
    "Verif.JobQueue.C06_partial",
    "Verif.JobQueue.C06_dtor_completes"
   ],
   "note": "the claim is false of the code (refuted); the part that holds is proved"
  },
  {
   "property": "C07",
   "status": "proved",
   "theorems": [
    "Verif.JobQueue.C07_no_stall",
    "Verif.JobQueue.C07_no_lost_waiter",
    "Verif.JobQueue.C07_runs_are_finite",
    "Verif.JobQueue.C07_liveness",
    "Verif.JobQueue.C07_wait_after_stop_blocks"
   ],
   "note": ""
  },
  {
   "property": "C08",
   "status": "proved",
   "theorems": [
    "Verif.Id.C08_total_order",
    "Verif.Id.C08_unset"
   ],
   "note": ""
  },
  {
   "property": "C09",
   "status": "proved",
   "theorems": [
    "Verif.Id.C09_increments_distinct",
    "Verif.Id.C09_increment_results"
   ],
   "note": ""
  },
  {
   "property": "C10",
   "status": "proved",
   "theorems": [
    "Verif.HashId.C10_hexString_form",
    "Verif.HashId.C10_round_trip",
    "Verif.HashId.C10_hexString_injective"
   ],
   "note": ""
  },
  {
   "property": "C11",
   "status": "partial",
   "theorems": [
    "Verif.HashId.C11_negation",
    "Verif.HashId.C11_accepts_malformed",
    "Verif.HashId.C11_throws_half_written",
    "Verif.HashId.C11_partial"
   ],
   "note": "the claim is false of the code (refuted)"
  },
  {
   "property": "C12",
   "status": "proved",
   "theorems": [
    "Verif.HashId.C12_order",
    "Verif.HashId.C12_validity_and_words",
    "Verif.HashId.C12_hash_sensitive"
   ],
   "note": ""
  },
  {
   "property": "C13",
   "status": "proved",
   "theorems": [
    "Verif.Numeric.C13_trichotomy",
    "Verif.Numeric.C13_refuses",
    "Verif.Numeric.C13_laws"
   ],
   "note": ""
  },
  {
   "property": "C14",
   "status": "proved",
   "theorems": [
    "Verif.Numeric.C14_quadratic",
    "Verif.Numeric.C14_linear",
    "Verif.Numeric.C14_sgn"
   ],
   "note": ""
  },
  {
   "property": "C15",
   "status": "partial",
   "theorems": [
    "Verif.Numeric.C15_round",
    "Verif.Numeric.C15_lrint_negation",
    "Verif.Numeric.C15_int_partial"
   ],
   "note": "lrint through an int cast is wrong outside the int range (refuted)"
  },
  {
   "property": "C16",
   "status": "partial",
   "theorems": [
    "Verif.Strings.C16_negation",
    "Verif.Strings.C16_replace_hangs",
    "Verif.Strings.C16_replace_reverse_wraps",
    "Verif.Strings.C16_replace_partial",
    "Verif.Strings.C16_replace_reverse_partial",
    "Verif.Strings.C16_spec_meaning"
   ],
   "note": "the claim is false of the code (refuted)"
  },
  {
   "property": "C17",
   "status": "proved",
   "theorems": [
    "Verif.Strings.C17_ensureTrailingBackslash",
    "Verif.Strings.C17_leading_pad",
    "Verif.Strings.C17_arrToString"
   ],
   "note": ""
  },
  {
   "property": "C18",
   "status": "proved",
   "theorems": [
    "Verif.Strings.C18_substitute",
    "Verif.Strings.C18_meaning"
   ],
   "note": ""
  },
  {
   "property": "C19",
   "status": "proved",
   "theorems": [
    "Verif.Archive.C19_round_trip",
    "Verif.Archive.C19_size_limit"
   ],
   "note": ""
  },
  {
   "property": "C20",
   "status": "proved",
   "theorems": [
    "Verif.Archive.C20_filtered_transfer"
   ],
   "note": ""
  },
  {
   "property": "C21",
   "status": "proved",
   "theorems": [
    "Verif.Archive.C21_setters",
    "Verif.Archive.C21_createMatrix",
    "Verif.Archive.C21_getters",
    "Verif.Archive.C21_size"
   ],
   "note": ""
  },
  {
   "property": "C22",
   "status": "partial",
   "theorems": [
    "Verif.Archive.C22_negation",
    "Verif.Archive.C22_partial"
   ],
   "note": "the claim is false of the code (refuted)"
  },
  {
   "property": "C23",
   "status": "partial",
   "theorems": [
    "Verif.Archive.C23_negation",
    "Verif.Archive.C23_partial"
   ],
   "note": "the claim is false of the code (refuted)"
  },
  {
   "property": "C24",
   "status": "partial",
   "theorems": [
    "Verif.Archive.C24_names",
    "Verif.Archive.C24_bad_start",
    "Verif.Archive.C24_bad_end",
    "Verif.Archive.C24_truncation_ub",
    "Verif.Archive.C24_truncation_negation",
    "Verif.Archive.C24_createMatrix_breaks_save"
   ],
   "note": "the truncation half is false of the code (refuted)"
  },
  {
   "property": "C25",
   "status": "proved",
   "theorems": [
    "Verif.PTree.C25_qualified",
    "Verif.PTree.C25_child_views",
    "Verif.PTree.C25_trailing_slash",
    "Verif.PTree.C25_below_namespace",
    "Verif.PTree.C25_child_get"
   ],
   "note": ""
  },
  {
   "property": "C26",
   "status": "proved",
   "theorems": [
    "Verif.PTree.C26_set_get",
    "Verif.PTree.C26_set_fails_iff"
   ],
   "note": ""
  },
  {
   "property": "C27",
   "status": "proved",
   "theorems": [
    "Verif.PTree.C27_defaults"
   ],
   "note": ""
  },
  {
   "property": "C28",
   "status": "partial",
   "theorems": [
    "Verif.PTree.C28_negation",
    "Verif.PTree.C28_dotted_key",
    "Verif.PTree.C28_merge_partial",
    "Verif.PTree.C28_plain_partial",
    "Verif.PTree.C28_update_only_partial"
   ],
   "note": "false for sources with empty or dotted keys (refuted); proved for all others"
  },
  {
   "property": "C29",
   "status": "proved",
   "theorems": [
    "Verif.PTree.C29_nesting",
    "Verif.PTree.C29_fails_iff",
    "Verif.PTree.C29_balanced"
   ],
   "note": ""
  },
  {
   "property": "C30",
   "status": "proved",
   "theorems": [
    "Verif.PTree.Loader.C30_terminates",
    "Verif.PTree.Loader.C30_loaded_once"
   ],
   "note": ""
  },
  {
   "property": "C31",
   "status": "proved",
   "theorems": [
    "Verif.PTree.Loader.C31_last_file_wins",
    "Verif.PTree.Loader.C31_marked_files_add_nothing",
    "Verif.PTree.Loader.C31_order",
    "Verif.PTree.Loader.C31_parents"
   ],
   "note": "for files whose keys boost can address (see C28)"
  },
  {
   "property": "C32",
   "status": "partial",
   "theorems": [
    "Verif.PTree.Loader.C32_negation",
    "Verif.PTree.Loader.C32_dot_names_are_searched",
    "Verif.PTree.Loader.C32_partial"
   ],
   "note": "the fallback and ./ clauses are false of the code (refuted)"
  },
  {
   "property": "C33",
   "status": "partial",
   "theorems": [
    "Verif.ValueStore.C33_first_layer",
    "Verif.ValueStore.C33_layered_partial",
    "Verif.ValueStore.C33_negation",
    "Verif.ValueStore.C33_child",
    "Verif.ValueStore.C33_children",
    "Verif.ValueStore.C33_child_supported"
   ],
   "note": "false for a layering of no stores (refuted); proved for every non-empty layering"
  },
  {
   "property": "C34",
   "status": "partial",
   "theorems": [
    "Verif.ValueStore.C34_renaming_partial",
    "Verif.ValueStore.C34_exists_negation",
    "Verif.ValueStore.C34_child_negation",
    "Verif.ValueStore.C34_child_partial",
    "Verif.ValueStore.C34_ref_child"
   ],
   "note": "existence and children are wrong in the code (refuted); the rest is proved"
  },
  {
   "property": "C35",
   "status": "proved",
   "theorems": [
    "Verif.ValueStore.C35_reads",
    "Verif.ValueStore.C35_add",
    "Verif.ValueStore.C35_children_partial"
   ],
   "note": ""
  },
  {
   "property": "C36",
   "status": "partial",
   "theorems": [
    "Verif.ValueStore.C36_negation",
    "Verif.ValueStore.C36_first_present_partial",
    "Verif.ValueStore.C36_fallback_partial",
    "Verif.ValueStore.C36_missing_message"
   ],
   "note": "messages are tried as candidates (refuted)"
  },
  {
   "property": "C63",
   "status": "proved",
   "theorems": [
    "Verif.ValueStore.C63_as_tree"
   ],
   "note": ""
  },
  {
   "property": "C37",
   "status": "proved",
   "theorems": [
    "Verif.Timing.C37_chrono",
    "Verif.Timing.C37_chrono_coarse",
    "Verif.Timing.C37_seconds",
    "Verif.Timing.C37_seconds_rounded",
    "Verif.Timing.C37_seconds_double"
   ],
   "note": ""
  },
  {
   "property": "C38",
   "status": "partial",
   "theorems": [
    "Verif.Timing.C38_negation",
    "Verif.Timing.C38_partial"
   ],
   "note": "the result is inverted in the code (refuted)"
  },
  {
   "property": "C39",
   "status": "proved",
   "theorems": [
    "Verif.Timing.C39_handles",
    "Verif.Timing.C39_unknown"
   ],
   "note": ""
  },
  {
   "property": "C40",
   "status": "proved",
   "theorems": [
    "Verif.Timing.C40_statistics",
    "Verif.Timing.C40_records"
   ],
   "note": ""
  },
  {
   "property": "C41",
   "status": "partial",
   "theorems": [
    "Verif.Timing.C41_partial",
    "Verif.Timing.C41_negation"
   ],
   "note": "seconds can print as 60.000000 (refuted)"
  },
  {
   "property": "C42",
   "status": "proved",
   "theorems": [
    "Verif.Timing.Corrector.C42_hull",
    "Verif.Timing.Corrector.C42_convex"
   ],
   "note": ""
  },
  {
   "property": "C43",
   "status": "proved",
   "theorems": [
    "Verif.Timing.Corrector.C43_line",
    "Verif.Timing.Corrector.C43_returned"
   ],
   "note": ""
  },
  {
   "property": "C44",
   "status": "partial",
   "theorems": [
    "Verif.Timing.Corrector.C44_negation",
    "Verif.Timing.Corrector.C44_partial"
   ],
   "note": "a stale segment index is used when the hull shrinks to two points (refuted)"
  },
  {
   "property": "C64",
   "status": "partial",
   "theorems": [
    "Verif.Timing.Corrector.C64_switching",
    "Verif.Timing.Corrector.C64_monotone_partial",
    "Verif.Timing.Corrector.C64_negation"
   ],
   "note": "safety, acceptance and hull proved for every run; times can go backwards at a switch (refuted), never with one corrector (proved)"
  },
  {
   "property": "C45",
   "status": "proved",
   "theorems": [
    "Verif.Logging.Config.C45_flags",
    "Verif.Logging.Config.C45_statement",
    "Verif.Logging.Config.C45_calls"
   ],
   "note": "any interleaving of any number of threads; sequentially consistent memory"
  },
  {
   "property": "C46",
   "status": "partial",
   "theorems": [
    "Verif.Logging.Config.C46_negation",
    "Verif.Logging.Config.C46_partial"
   ],
   "note": "a lock-order inversion deadlocks (refuted); without enable/disableNamedStream no deadlock (proved)"
  },
  {
   "property": "C47",
   "status": "partial",
   "theorems": [
    "Verif.Logging.C47_normalised",
    "Verif.Logging.C47_negation",
    "Verif.Logging.C47_partial",
    "Verif.Logging.Config.C47_last_call"
   ],
   "note": "names sm / sm.x given to *_NAMED denote other streams than given to enableNamedStream (refuted)"
  },
  {
   "property": "C48",
   "status": "proved",
   "theorems": [
    "Verif.Logging.C48_once",
    "Verif.Logging.C48_throttle"
   ],
   "note": ""
  },
  {
   "property": "C49",
   "status": "proved",
   "theorems": [
    "Verif.Logging.C49_lossless",
    "Verif.Logging.C49_text",
    "Verif.Logging.C49_substitution",
    "Verif.Logging.C49_unknown",
    "Verif.Logging.C49_values",
    "Verif.Logging.C49_print"
   ],
   "note": ""
  },
  {
   "property": "C50",
   "status": "proved",
   "theorems": [
    "Verif.Logging.C50_names",
    "Verif.Logging.C50_lower",
    "Verif.Logging.C50_order"
   ],
   "note": ""
  },
  {
   "property": "C65",
   "status": "partial",
   "theorems": [
    "Verif.Logging.C65_delivery",
    "Verif.Logging.C65_negation",
    "Verif.Logging.C65_partial"
   ],
   "note": "a logger that throws a non-std exception silences the thread (refuted)"
  },
  {
   "property": "C66",
   "status": "proved",
   "theorems": [
    "Verif.Logging.C66_whole"
   ],
   "note": ""
  },
  {
   "property": "C51",
   "status": "proved",
   "theorems": [
    "Verif.Kinematics.C51_product",
    "Verif.Kinematics.C51_inverse",
    "Verif.Kinematics.C51_norm",
    "Verif.Kinematics.C51_matrices"
   ],
   "note": "over the reals"
  },
  {
   "property": "C52",
   "status": "proved",
   "theorems": [
    "Verif.Kinematics.C52_rotation",
    "Verif.Kinematics.C52_homomorphism",
    "Verif.Kinematics.C52_double_cover",
    "Verif.Kinematics.C52_rotate"
   ],
   "note": "over the reals"
  },
  {
   "property": "C53",
   "status": "proved",
   "theorems": [
    "Verif.Kinematics.C53_left_inverse",
    "Verif.Kinematics.C53_right_inverse"
   ],
   "note": "over the reals"
  },
  {
   "property": "C54",
   "status": "partial",
   "theorems": [
    "Verif.Kinematics.C54_negation",
    "Verif.Kinematics.C54_partial",
    "Verif.Kinematics.C54_exp_log_partial",
    "Verif.Kinematics.C54_log_exp_partial",
    "Verif.Kinematics.C54_exp_log_negative_partial",
    "Verif.Kinematics.C54_log_exp_long_partial",
    "Verif.Kinematics.C54_exp_log_small_partial",
    "Verif.Kinematics.C54_log_exp_small_partial"
   ],
   "note": "the small-angle series has the wrong sign (refuted); proved outside that branch, error bounded inside it, for every unit quaternion except -1 and every rotation vector shorter than 2 pi"
  },
  {
   "property": "C55",
   "status": "proved",
   "theorems": [
    "Verif.Kinematics.C55_elementary",
    "Verif.Kinematics.C55_rph",
    "Verif.Kinematics.C55_recovers",
    "Verif.Kinematics.C55_onto",
    "Verif.Kinematics.C55_singularity"
   ],
   "note": "over the reals"
  },
  {
   "property": "C56",
   "status": "partial",
   "theorems": [
    "Verif.Kinematics.C56_negation",
    "Verif.Kinematics.C56_partial",
    "Verif.Kinematics.C56_vector_partial",
    "Verif.Kinematics.C56_log_partial"
   ],
   "note": "negative angles give the identity (refuted); proved for the others"
  },
  {
   "property": "C67",
   "status": "proved",
   "theorems": [
    "Verif.Kinematics.C67_angleMod",
    "Verif.Kinematics.C67_degrees"
   ],
   "note": "over the reals"
  },
  {
   "property": "C57",
   "status": "proved",
   "theorems": [
    "Verif.Kinematics.C57_unit",
    "Verif.Kinematics.C57_matrix",
    "Verif.Kinematics.C57_action",
    "Verif.Kinematics.C57_group",
    "Verif.Kinematics.C57_functions",
    "Verif.Kinematics.C57_euler"
   ],
   "note": "over the reals; every transformation a user can build"
  },
  {
   "property": "C58",
   "status": "proved",
   "theorems": [
    "Verif.Kinematics.C58_conversion",
    "Verif.Kinematics.C58_arithmetic",
    "Verif.Kinematics.C58_transform",
    "Verif.Kinematics.C58_directions",
    "Verif.Kinematics.C58_columns",
    "Verif.Kinematics.C58_jacobians",
    "Verif.Kinematics.C58_oplus_jacobians"
   ],
   "note": "over the reals"
  },
  {
   "property": "C59",
   "status": "proved",
   "theorems": [
    "Verif.Kinematics.C59_vectors",
    "Verif.Kinematics.C59_scalars",
    "Verif.Kinematics.C59_points",
    "Verif.Kinematics.C59_transformations",
    "Verif.Kinematics.C59_roundtrip",
    "Verif.Kinematics.C59_consistent",
    "Verif.Kinematics.C59_diagonal"
   ],
   "note": "over the reals"
  },
  {
   "property": "C62",
   "status": "proved",
   "theorems": [
    "Verif.Kinematics.C62_operators",
    "Verif.Kinematics.C62_jacobians",
    "Verif.Kinematics.C62_composition",
    "Verif.Kinematics.C62_updates"
   ],
   "note": "over the reals"
  },
  {
   "property": "C68",
   "status": "partial",
   "theorems": [
    "Verif.Kinematics.C68_vectors",
    "Verif.Kinematics.C68_scalars",
    "Verif.Kinematics.C68_points",
    "Verif.Kinematics.C68_transformations",
    "Verif.Kinematics.C68_points_negation",
    "Verif.Kinematics.C68_difference_negation",
    "Verif.Kinematics.C68_mixed_negation",
    "Verif.Kinematics.C68_points_partial",
    "Verif.Kinematics.C68_point_values"
   ],
   "note": "the difference of uncertain points and sums with certain points are wrong (refuted); everything else is proved"
  },
  {
   "property": "C60",
   "status": "partial",
   "theorems": [
    "Verif.Kinematics.C60_ends",
    "Verif.Kinematics.C60_slerp_partial",
    "Verif.Kinematics.C60_slerp_close",
    "Verif.Kinematics.C60_slerpTransformations",
    "Verif.Kinematics.C60_interpolate",
    "Verif.Kinematics.C60_negation"
   ],
   "note": "the claim that every intermediate quaternion is exactly unit is false in the series branch (C60_negation): there within 1e-12 of the exact point and |q|^2 < 1+2e-17; everything else proved"
  },
  {
   "property": "C61",
   "status": "proved",
   "theorems": [
    "Verif.Kinematics.C61_euler_rotations",
    "Verif.Kinematics.C61_euler_smatrix",
    "Verif.Kinematics.C61_euler_velocity",
    "Verif.Kinematics.C61_rodriguez",
    "Verif.Kinematics.C61_rotvec_smatrix",
    "Verif.Kinematics.C61_rotvec_small",
    "Verif.Kinematics.C61_rotvec_inverse",
    "Verif.Kinematics.C61_rotvec_velocity",
    "Verif.Kinematics.C61_regular"
   ],
   "note": "rotation vectors shorter than 1e-14: error bounds instead"
  },
  {
   "property": "C69",
   "status": "partial",
   "theorems": [
    "Verif.Kinematics.C69_euler_recovers",
    "Verif.Kinematics.C69_euler_onto",
    "Verif.Kinematics.C69_every_rotation",
    "Verif.Kinematics.C69_from_matrix_partial",
    "Verif.Kinematics.C69_recovers_partial",
    "Verif.Kinematics.C69_negation"
   ],
   "note": "false for half turns (RotationVector and EulerRodriguez return zero): C69_negation; proved on the complement"
  },
  {
   "property": "C70",
   "status": "partial",
   "theorems": [
    "Verif.Kinematics.C70_exp_jacobian",
    "Verif.Kinematics.C70_exp_jacobian_zero",
    "Verif.Kinematics.C70_exp_jacobian_small_partial",
    "Verif.Kinematics.C70_negation",
    "Verif.Kinematics.C70_inverse",
    "Verif.Kinematics.C70_log_jacobian",
    "Verif.Kinematics.C70_log_jacobian_all",
    "Verif.Kinematics.C70_log_jacobian2",
    "Verif.Kinematics.C70_update"
   ],
   "note": "false for rotation vectors between 0 and 1/8192 (C70_negation), where the error is bounded; the logarithm's Jacobian is proved where the vector part is longer than 1/8192"
  },
  {
   "property": "C71",
   "status": "partial",
   "theorems": [
    "Verif.PTree.C71_children_partial",
    "Verif.PTree.C71_negation"
   ],
   "note": "false for namespaces that contain a dot (refuted); proved for all others"
  },
  {
   "property": "C72",
   "status": "proved",
   "theorems": [
    "Verif.Kinematics.C72_optimal",
    "Verif.Kinematics.C72_exact",
    "Verif.Kinematics.C72_recovers"
   ],
   "note": "over the reals; Eigen's SVD by its contract"
  },
  {
   "property": "C73",
   "status": "proved",
   "theorems": [
    "Verif.Kinematics.C73_optimal",
    "Verif.Kinematics.C73_exact",
    "Verif.Kinematics.C73_recovers",
    "Verif.Kinematics.C73_contract"
   ],
   "note": "over the reals; Eigen's symmetric eigen solver by its contract"
  },
  {
   "property": "C74",
   "status": "partial",
   "theorems": [
    "Verif.Serial.C74_negation",
    "Verif.Serial.C74_first_partial",
    "Verif.Serial.C74_single_partial",
    "Verif.Serial.C74_verbose_partial"
   ],
   "note": "the macros are not parenthesised: a conjunction only tests its first check (refuted)"
  },
  {
   "property": "C75",
   "status": "partial",
   "theorems": [
    "Verif.Serial.C75_points",
    "Verif.Serial.C75_others_partial",
    "Verif.Serial.C75_complete_partial",
    "Verif.Serial.C75_negation"
   ],
   "note": "Transformation, UncertainTransformation and UncertainVector ignore a member (refuted)"
  },
  {
   "property": "C76",
   "status": "partial",
   "theorems": [
    "Verif.Serial.C76_partial",
    "Verif.Serial.C76_negation"
   ],
   "note": "pointers to pointers are compared by address or do not compile (refuted); objects and pointers to objects proved"
  },
  {
   "property": "C77",
   "status": "partial",
   "theorems": [
    "Verif.Serial.Cv.C77_partial",
    "Verif.Serial.Cv.C77_prefix_partial",
    "Verif.Serial.Cv.C77_negation",
    "Verif.Serial.Cv.C77_overread"
   ],
   "note": "only the number of rows is checked (refuted); proved for matrices of equal width and type"
  },
  {
   "property": "C78",
   "status": "partial",
   "theorems": [
    "Verif.Serial.Cv.C78_partial",
    "Verif.Serial.Cv.C78_row_negation",
    "Verif.Serial.Cv.C78_overread",
    "Verif.Serial.Cv.C78_view_negation",
    "Verif.Serial.Cv.C78_keypoints"
   ],
   "note": "false for one-row views and for loading into a view of the same size (refuted); proved for everything else"
  },
  {
   "property": "C79",
   "status": "partial",
   "theorems": [
    "Verif.Serial.Boost.C79_roundtrip_partial",
    "Verif.Serial.Boost.C79_mismatch_partial",
    "Verif.Serial.Boost.C79_order_partial",
    "Verif.Serial.Boost.C79_order_negation",
    "Verif.Serial.Boost.C79_empty_negation"
   ],
   "note": "false for another storage order and for empty matrices in types with fixed rows and dynamic columns (refuted); proved for everything else"
  },
  {
   "property": "C80",
   "status": "proved",
   "theorems": [
    "Verif.Serial.Boost.C80_roundtrip",
    "Verif.Serial.Boost.C80_version"
   ],
   "note": "boost::serialization by its contract"
  },
  {
   "property": "C81",
   "status": "proved",
   "theorems": [
    "Verif.Serial.Boost.C81_files",
    "Verif.Serial.Boost.C81_tag",
    "Verif.Serial.Boost.C81_member_names"
   ],
   "note": "boost::serialization and the file system by their contract"
  },
  {
   "property": "C82",
   "status": "partial",
   "theorems": [
    "Verif.Serial.Boost.C82_partial",
    "Verif.Serial.Boost.C82_negation",
    "Verif.Serial.Boost.C82_not_atomic"
   ],
   "note": "false for text files cut inside the last number (refuted); proved for binary and XML files"
  },
  {
   "property": "C83",
   "status": "proved",
   "theorems": [
    "Verif.Random.C83_reproducible",
    "Verif.Random.C83_uniform"
   ],
   "note": "boost::random by its contract (ResetOk); also shows that only 32 bits of the seed count"
  },
  {
   "property": "C84",
   "status": "partial",
   "theorems": [
    "Verif.Random.C84_range_partial",
    "Verif.Random.C84_negation",
    "Verif.Random.C84_double_partial",
    "Verif.Random.C84_overflow",
    "Verif.Random.C84_double_negation"
   ],
   "note": "the upper bound is reached for very narrow intervals (refuted for [1, 1+2^-52)), and bounds whose difference overflows give infinity or NaN (refuted); otherwise lo <= x <= hi always, and x < hi if the interval is not narrower than 2^-18 of its larger end"
  },
  {
   "property": "C85",
   "status": "partial",
   "theorems": [
    "Verif.Random.C85_range_partial",
    "Verif.Random.C85_negation",
    "Verif.Random.C85_onto",
    "Verif.Random.C85_uniform"
   ],
   "note": "hi - lo overflows for bounds more than INT_MAX apart (refuted); everything else proved"
  },
  {
   "property": "C86",
   "status": "proved",
   "theorems": [
    "Verif.SmEigen.C86_points",
    "Verif.SmEigen.C86_exact",
    "Verif.SmEigen.C86_error",
    "Verif.SmEigen.C86_limit"
   ],
   "note": "over the reals"
  },
  {
   "property": "C87",
   "status": "proved",
   "theorems": [
    "Verif.SmEigen.C87_sqrt",
    "Verif.SmEigen.C87_only"
   ],
   "note": "over the reals; Eigen's LDLT by its contract (IsLdlt)"
  },
  {
   "property": "C88",
   "status": "partial",
   "theorems": [
    "Verif.SmEigen.C88_randomCovariance",
    "Verif.SmEigen.C88_compareRelative_partial",
    "Verif.SmEigen.C88_negation",
    "Verif.SmEigen.C88_assertMat",
    "Verif.SmEigen.C88_expect_negation",
    "Verif.SmEigen.C88_expect_partial",
    "Verif.SmEigen.C88_finite"
   ],
   "note": "compareRelative accepts NaN and infinities, expectNear reads out of bounds when the sizes differ (refuted); everything else proved"
  },
  {
   "property": "C89",
   "status": "partial",
   "theorems": [
    "Verif.Assert.C89_rel",
    "Verif.Assert.C89_rel_partial",
    "Verif.Assert.C89_range",
    "Verif.Assert.C89_range_partial",
    "Verif.Assert.C89_sign_partial",
    "Verif.Assert.C89_sign_fp_partial",
    "Verif.Assert.C89_bool",
    "Verif.Assert.C89_near",
    "Verif.Assert.C89_finite",
    "Verif.Assert.C89_throw",
    "Verif.Assert.C89_negation",
    "Verif.Assert.C89_text_negation"
   ],
   "note": "NaN passes all order assertions, and SM_ASSERT_NONPOSITIVE prints the wrong relation (refuted); proved for everything else"
  },
  {
   "property": "C90",
   "status": "partial",
   "theorems": [
    "Verif.Assert.C90_once_partial",
    "Verif.Assert.C90_debug",
    "Verif.Assert.C90_negation",
    "Verif.Assert.C90_debug_negation"
   ],
   "note": "the range assertions evaluate the value twice (refuted); proved for the others and for the debug switch"
  },
  {
   "property": "C91",
   "status": "partial",
   "theorems": [
    "Verif.Assert.C91_text",
    "Verif.Assert.C91_grouping",
    "Verif.Assert.C91_assert",
    "Verif.Assert.C91_exact",
    "Verif.Assert.C91_partial",
    "Verif.Assert.C91_negation"
   ],
   "note": "SM_ASSERT_CMD does not parenthesise its condition (refuted, including the documented example; C91_exact says what it does); SM_ASSERT and SM_ASSERT_MSG proved"
  },
  {
   "property": "C92",
   "status": "proved",
   "theorems": [
    "Verif.Kinematics.C92_reads",
    "Verif.Kinematics.C92_errors",
    "Verif.Kinematics.C92_roundtrip"
   ],
   "note": "over the reals; the zero quaternion (NaN in C++) is excluded by hypothesis; boost's text conversion is a parameter"
  },
  {
   "property": "C93",
   "status": "partial",
   "theorems": [
    "Verif.Traits.C93_negation",
    "Verif.Traits.C93_partial",
    "Verif.Traits.C93_add",
    "Verif.Traits.C93_total"
   ],
   "note": "false for rvalue references and constant pointers (refuted); proved otherwise"
  },
  {
   "property": "C94",
   "status": "partial",
   "theorems": [
    "Verif.PTree.C94_negation",
    "Verif.PTree.C94_tree",
    "Verif.PTree.C94_assignments",
    "Verif.PTree.C94_partial",
    "Verif.PTree.C94_comment",
    "Verif.PTree.C94_unclosed",
    "Verif.PTree.C94_blank_cuts"
   ],
   "note": "false for assignments that share their first key and for values with blanks (refuted); boost's INFO reader is modelled for text without quotation marks"
  },
  {
   "property": "C95",
   "status": "proved",
   "theorems": [
    "Verif.PTree.C95_format",
    "Verif.PTree.C95_errors",
    "Verif.PTree.C95_save_load"
   ],
   "note": "boost's readers and writers are parameters"
  },
  {
   "property": "C96",
   "status": "proved",
   "theorems": [
    "Verif.PTree.C96_findFile"
   ],
   "note": ""
  },
  {
   "property": "C97",
   "status": "partial",
   "theorems": [
    "Verif.Matlab.C97_negation",
    "Verif.Matlab.C97_partial",
    "Verif.Matlab.C97_put_reported"
   ],
   "note": "false for empty strings and empty matrices (refuted); the MATLAB engine library by its contract"
  },
  {
   "property": "C98",
   "status": "partial",
   "theorems": [
    "Verif.Matlab.C98_negation",
    "Verif.Matlab.C98_partial",
    "Verif.Matlab.C98_exceptions_partial",
    "Verif.Matlab.C98_testers"
   ],
   "note": "false for 64-bit integer and complex variables, and the matrix is resized before a type error (refuted)"
  },
  {
   "property": "C99",
   "status": "partial",
   "theorems": [
    "Verif.Matlab.C99_negation",
    "Verif.Matlab.C99_partial"
   ],
   "note": "the check accepts the empty name, leading underscores and names of any length (refuted); keywords not considered"
  },
  {
   "property": "C100",
   "status": "partial",
   "theorems": [
    "Verif.Matlab.C100_negation",
    "Verif.Matlab.C100_partial"
   ],
   "note": "the testers and get(string) leak (refuted); exact account of every call"
  },
  {
   "property": "C101",
   "status": "partial",
   "theorems": [
    "Verif.Matlab.C101_negation",
    "Verif.Matlab.C101_partial",
    "Verif.Matlab.C101_uninitialized"
   ],
   "note": "false for Engine(false), copies, and debug builds in which closing fails (refuted)"
  },
  {
   "property": "C102",
   "status": "partial",
   "theorems": [
    "Verif.Matlab.C102_negation",
    "Verif.Matlab.C102_partial",
    "Verif.Matlab.C102_output"
   ],
   "note": "false for an unterminated last line and long lines (refuted)"
  },
  {
   "property": "C103",
   "status": "partial",
   "theorems": [
    "Verif.Python.C103_order",
    "Verif.Python.C103_points_partial",
    "Verif.Python.C103_exact_partial",
    "Verif.Python.C103_certain_partial",
    "Verif.Python.C103_values_partial",
    "Verif.Python.C103_negation",
    "Verif.Python.C103_uncertain_negation",
    "Verif.Python.C103_points"
   ],
   "note": "products with an uncertain right operand and the inverse drop uncertainties (refuted); the general order theorem and the exact behaviour are proved"
  },
  {
   "property": "C104",
   "status": "partial",
   "theorems": [
    "Verif.Python.C104_transformation_partial",
    "Verif.Python.C104_exact_partial",
    "Verif.Python.C104_negation",
    "Verif.Python.C104_refuses_partial"
   ],
   "note": "pickling an uncertain transformation loses its covariance (refuted)"
  },
  {
   "property": "C105",
   "status": "partial",
   "theorems": [
    "Verif.Python.C105_round_trip_partial",
    "Verif.Python.C105_value_partial",
    "Verif.Python.C105_from_partial",
    "Verif.Python.C105_order_partial",
    "Verif.Python.C105_negation"
   ],
   "note": "ids from 2^63 on are negative and out-of-range numbers are accepted (refuted)"
  },
  {
   "property": "C106",
   "status": "partial",
   "theorems": [
    "Verif.Python.C106_unnamed_partial",
    "Verif.Python.C106_named_partial",
    "Verif.Python.C106_prefix_partial",
    "Verif.Python.C106_raw_partial",
    "Verif.Python.C106_negation"
   ],
   "note": "logVerbose raises, named events carry the bare name, names that begin with sm. differ (refuted)"
  },
  {
   "property": "C107",
   "status": "partial",
   "theorems": [
    "Verif.ValueStore.C107_reads",
    "Verif.ValueStore.C107_update_partial",
    "Verif.ValueStore.C107_later_partial",
    "Verif.ValueStore.C107_const_partial",
    "Verif.ValueStore.C107_default_partial",
    "Verif.ValueStore.C107_negation"
   ],
   "note": "handles taken with a default are constant (refuted); everything else holds"
  },
  {
   "property": "C108",
   "status": "partial",
   "theorems": [
    "Verif.ValueStore.C108_getChild_partial",
    "Verif.ValueStore.C108_getChild_update_partial",
    "Verif.ValueStore.C108_getChildren_partial",
    "Verif.ValueStore.C108_verbose_children_partial",
    "Verif.ValueStore.C108_frame",
    "Verif.ValueStore.C108_negation",
    "Verif.ValueStore.C108_child_reads"
   ],
   "note": "children from getChildren are copies (refuted)"
  },
  {
   "property": "C109",
   "status": "partial",
   "theorems": [
    "Verif.ValueStore.C109_get_partial",
    "Verif.ValueStore.C109_others_partial",
    "Verif.ValueStore.C109_tags",
    "Verif.ValueStore.C109_negation",
    "Verif.ValueStore.C109_children_partial"
   ],
   "note": "the DEFAULT mark only says that the key is missing (refuted)"
  },
  {
   "property": "C110",
   "status": "partial",
   "theorems": [
    "Verif.ValueStore.C110_add",
    "Verif.ValueStore.C110_exact_partial",
    "Verif.ValueStore.C110_negation",
    "Verif.ValueStore.C110_extendible_child"
   ],
   "note": "children save and test the whole tree (refuted)"
  },
  {
   "property": "C111",
   "status": "partial",
   "theorems": [
    "Verif.Python.C111_store_partial",
    "Verif.Python.C111_types_partial",
    "Verif.Python.C111_negation"
   ],
   "note": "a key whose present value has another type cannot be set (refuted)"
  },
  {
   "property": "C112",
   "status": "partial",
   "theorems": [
    "Verif.Timing.Machine.C112_safe_partial",
    "Verif.Timing.Machine.C112_query_partial",
    "Verif.Timing.Machine.C112_negation",
    "Verif.Timing.Machine.C112_special_negation"
   ],
   "note": "proved for remote times up to 2^1022 and any local times; the sum of larger ones overflows and the last piece is read outside the hull (refuted), likewise after a NaN or -inf"
  },
  {
   "property": "C113",
   "status": "partial",
   "theorems": [
    "Verif.Timing.Machine.C113_hull_partial",
    "Verif.Timing.Machine.C113_accuracy_partial",
    "Verif.Timing.Machine.C113_negation"
   ],
   "note": "times up to 2^64 and at least 2^-64 apart; error bounds proved; the result can be later than the local time (refuted)"
  },
  {
   "property": "C114",
   "status": "partial",
   "theorems": [
    "Verif.Timing.Machine.C114_safe_partial",
    "Verif.Timing.Machine.C114_negation",
    "Verif.Timing.Machine.C114_midpoint_negation"
   ],
   "note": "proved for times within 2^31 of each other, small or 258 apart; otherwise signed overflow in the determinant or an index of -1 (refuted)"
  },
  {
   "property": "C115",
   "status": "partial",
   "theorems": [
    "Verif.Timing.Machine.C115_accuracy_partial",
    "Verif.Timing.Machine.C115_negation"
   ],
   "note": "error bound proved; nanoseconds since 1970 are off by up to hundreds (refuted)"
  },
  {
   "property": "C116",
   "status": "partial",
   "theorems": [
    "Verif.NumericDouble.C116_order_partial",
    "Verif.NumericDouble.C116_default_exact_partial",
    "Verif.NumericDouble.C116_accuracy_partial",
    "Verif.NumericDouble.C116_refuses",
    "Verif.NumericDouble.C116_negation",
    "Verif.NumericDouble.C116_special_negation"
   ],
   "note": "proved for all finite doubles; infinities are approximately equal to everything but themselves (refuted)"
  },
  {
   "property": "C117",
   "status": "partial",
   "theorems": [
    "Verif.NumericDouble.C117_accepts_partial",
    "Verif.NumericDouble.C117_accuracy_partial",
    "Verif.NumericDouble.C117_double_zero",
    "Verif.NumericDouble.C117_accepts_negation",
    "Verif.NumericDouble.C117_rejects_negation",
    "Verif.NumericDouble.C117_overflow_negation"
   ],
   "note": "accuracy proved for coefficients zero or between 2^-200 and 2^200; refuted: a discriminant of -3 is computed as 0, 4*c and b*b can overflow"
  },
  {
   "property": "C118",
   "status": "partial",
   "theorems": [
    "Verif.NumericDouble.C118_round_partial",
    "Verif.NumericDouble.C118_negation"
   ],
   "note": "proved below 2^52 with one exception (the double before 1/2) and from 2^53 on; odd numbers between are rounded up by one (refuted)"
  },
  {
   "property": "C119",
   "status": "partial",
   "theorems": [
    "Verif.KinematicsDouble.C119_chain",
    "Verif.KinematicsDouble.C119_product",
    "Verif.KinematicsDouble.C119_assertion",
    "Verif.KinematicsDouble.C119_negation"
   ],
   "note": "proved with explicit error for up to 2^40 products, the assertion for up to 2^30; without a bound on the length the norm drifts away (refuted), nothing renormalizes"
  },
  {
   "property": "C120",
   "status": "proved",
   "theorems": [
    "Verif.KinematicsDouble.C120_unit",
    "Verif.KinematicsDouble.C120_assertion"
   ],
   "note": "quaternions passed to constructors finite and of norm between 2^-200 and 2^200; the order of Eigen's sums and its way of dividing a vector are parameters"
  },
  {
   "property": "C121",
   "status": "proved",
   "theorems": [
    "Verif.KinematicsDouble.C121_rotation",
    "Verif.KinematicsDouble.C121_translation",
    "Verif.KinematicsDouble.C121_point"
   ],
   "note": "rotation bound for up to 2^40 steps, translation bound for up to 2^20; an absolute term of 2^-250 covers underflow"
  },
  {
   "property": "C122",
   "status": "proved",
   "theorems": [
    "Verif.KinematicsDouble.C122_matrix",
    "Verif.KinematicsDouble.C122_entries"
   ],
   "note": ""
  },
  {
   "property": "C123",
   "status": "partial",
   "theorems": [
    "Verif.Assert.C123_prefix",
    "Verif.Assert.C123_complete",
    "Verif.Assert.C123_alarm",
    "Verif.Assert.C123_small_negation",
    "Verif.Assert.C123_negation",
    "Verif.Assert.C123_loss_partial",
    "Verif.Assert.C123_unbuffered_partial",
    "Verif.Assert.C123_atomic_negation",
    "Verif.Assert.C123_leftover"
   ],
   "note": "proved: prefix, completeness with room, no false alarm, content of leftovers; refuted: 'normal return means complete file' (close() unchecked; at most a buffer is lost, none without buffer) and atomic replacement"
  },
  {
   "property": "C124",
   "status": "proved",
   "theorems": [
    "Verif.Assert.C124_names",
    "Verif.Assert.C124_matrices",
    "Verif.Assert.C124_strings",
    "Verif.Assert.C124_size",
    "Verif.Assert.C124_converters"
   ],
   "note": ""
  },
  {
   "property": "C125",
   "status": "partial",
   "theorems": [
    "Verif.Logging.Statement.C125_effects",
    "Verif.Logging.Statement.C125_prints",
    "Verif.Logging.Statement.C125_arguments",
    "Verif.Logging.Statement.C125_name_negation",
    "Verif.Logging.Statement.C125_name_partial"
   ],
   "note": "proved in full except that the sub-claim 'a _NAMED statement follows its name argument' is refuted; it holds when the argument always has the same value"
  },
  {
   "property": "C126",
   "status": "partial",
   "theorems": [
    "Verif.Logging.Statement.C126_enabled",
    "Verif.Logging.Statement.C126_silent",
    "Verif.Logging.Statement.C126_silent_named",
    "Verif.Logging.Statement.C126_negation",
    "Verif.Logging.Statement.C126_package_partial"
   ],
   "note": "refuted for package names other than sm and sm.\u2026; proved for these"
  },
  {
   "property": "C127",
   "status": "partial",
   "theorems": [
    "Verif.JobQueue.C127_futures",
    "Verif.JobQueue.C127_stable",
    "Verif.JobQueue.C127_all_ready",
    "Verif.JobQueue.C127_after_destructor",
    "Verif.JobQueue.C127_negation",
    "Verif.JobQueue.C127_terminate_partial",
    "Verif.JobQueue.C127_terminate_exact",
    "Verif.JobQueue.C127_join_negation",
    "Verif.JobQueue.C127_join_partial"
   ],
   "note": "futures are characterised exactly; refuted: a throwing job scheduled with scheduleWork terminates the process (proved: only such jobs do), and after join() futures of jobs left in the queue stay waiting until the queue is destroyed (proved exactly those)"
  },
  {
   "property": "C128",
   "status": "partial",
   "theorems": [
    "Verif.JobQueue.C128_no_call_returns",
    "Verif.JobQueue.C128_negation",
    "Verif.JobQueue.C128_deadlock",
    "Verif.JobQueue.C128_earlier_partial"
   ],
   "note": "refuted: jobs that wait for futures of jobs scheduled later can block the whole pool for good (general deadlock theorem); proved: no deadlock, for every pool size, if jobs wait only for futures of jobs scheduled before them"
  },
  {
   "property": "C129",
   "status": "partial",
   "theorems": [
    "Verif.Timing.C129_extremes",
    "Verif.Timing.C129_total",
    "Verif.Timing.C129_mean_variance_partial",
    "Verif.Timing.C129_stddev_partial",
    "Verif.Timing.C129_one_sample",
    "Verif.Timing.C129_laps_partial",
    "Verif.Timing.C129_five_laps_negation",
    "Verif.Timing.C129_negation"
   ],
   "note": "count, extremes exact, error bounds of total, mean, variance proved; refuted: five equal laps of 111 us give a negative variance, a mean above the maximum, and printing converts NaN to long (undefined behaviour)"
  },
  {
   "property": "C130",
   "status": "partial",
   "theorems": [
    "Verif.Timing.Conc.C130_race_negation",
    "Verif.Timing.Conc.C130_negation",
    "Verif.Timing.Conc.C130_no_race_partial",
    "Verif.Timing.Conc.C130_atomic_partial",
    "Verif.Timing.Conc.C130_statistics_partial",
    "Verif.Timing.Conc.C130_order",
    "Verif.Timing.Conc.C130_in_range_partial",
    "Verif.Timing.Conc.C130_no_deadlock",
    "Verif.Timing.Conc.C130_steps",
    "Verif.Timing.Conc.C130_finish"
   ],
   "note": "refuted: the getters, getTag (also used for exception messages) and Timer(handle) read the registry without the mutex and race with stop() and registrations; proved for all histories of the calls that take the mutex (timers made by tag, start, stop, destruction, getHandle, reset); absence of deadlock, order of the record and step bounds proved for all calls"
  },
  {
   "property": "C131",
   "status": "proved",
   "theorems": [
    "Verif.Python.Tree.C131_read_only",
    "Verif.Python.Tree.C131_effects"
   ],
   "note": ""
  },
  {
   "property": "C132",
   "status": "partial",
   "theorems": [
    "Verif.Python.Tree.C132_const_getChild",
    "Verif.Python.Tree.C132_no_getOrCreateBool",
    "Verif.Python.Tree.C132_negation",
    "Verif.Python.Tree.C132_views_partial"
   ],
   "note": "refuted: getChild of a ConstPropertyTree raises ArgumentError always (the function registered is PropertyTree::getChild), and getOrCreateBool is misspelled; proved: views made with the constructors, and with getChild on objects that can write"
  },
  {
   "property": "C133",
   "status": "proved",
   "theorems": [
    "Verif.Python.Tree.C133_write_read",
    "Verif.Python.Tree.C133_default_create",
    "Verif.Python.Tree.C133_refused",
    "Verif.Python.Tree.C133_accepted"
   ],
   "note": ""
  },
  {
   "property": "C134",
   "status": "partial",
   "theorems": [
    "Verif.Python.C134_report",
    "Verif.Python.C134_negation",
    "Verif.Python.C134_one_short",
    "Verif.Python.C134_steps",
    "Verif.Python.C134_overrun_negation",
    "Verif.Python.C134_remaining_partial",
    "Verif.Python.C134_reset"
   ],
   "note": "refuted: the documented loop ends with n-1 / n; after more steps than announced a remaining time up to 59m 59s is shown; proved: exact counts, estimates and remaining time otherwise (exact arithmetic instead of floats)"
  },
  {
   "property": "C135",
   "status": "partial",
   "theorems": [
    "Verif.Common.C135_format",
    "Verif.Common.C135_complete_too_early",
    "Verif.Common.C135_hundred_too_early",
    "Verif.Common.C135_negation",
    "Verif.Common.C135_shown_partial",
    "Verif.Common.C135_monotone"
   ],
   "note": "refuted: formatting of std::cout is changed for good, Complete! too early above 2^53, 100.00% for 99999 of 100000; proved in doubles for all counts up to 2^53"
  },
  {
   "property": "C136",
   "status": "partial",
   "theorems": [
    "Verif.Logging.Stamp.C136_exact_partial",
    "Verif.Logging.Stamp.C136_near",
    "Verif.Logging.Stamp.C136_monotone",
    "Verif.Logging.Stamp.C136_one_late",
    "Verif.Logging.Stamp.C136_negation",
    "Verif.Logging.Stamp.C136_text_order",
    "Verif.Logging.Stamp.C136_text_strict_partial",
    "Verif.Logging.Stamp.C136_text_order_2001"
   ],
   "note": "refuted: from 2^33 seconds (2242) stamps are off by a microsecond, and texts sort wrongly across 10^9 seconds (2001); proved: exact before 2^33 s, within 2 us always, monotone always, texts sort by time from 10^9 s on"
  },
  {
   "property": "C137",
   "status": "partial",
   "theorems": [
    "Verif.Archive.Mlab.C137_fields_partial",
    "Verif.Archive.Mlab.C137_complete_partial",
    "Verif.Archive.Mlab.C137_negation"
   ],
   "note": "refuted: of a matrix and a string of the same name Matlab gets the string only; proved: exact contents of the struct for every reachable archive and filter"
  },
  {
   "property": "C138",
   "status": "partial",
   "theorems": [
    "Verif.Archive.Mlab.C138_to_cpp_partial",
    "Verif.Archive.Mlab.C138_roundtrip",
    "Verif.Archive.Mlab.C138_two_rows",
    "Verif.Archive.Mlab.C138_not_ascii",
    "Verif.Archive.Mlab.C138_negation",
    "Verif.Archive.Mlab.C138_errors",
    "Verif.Archive.Mlab.C138_three_dims"
   ],
   "note": "refuted: character matrices with several rows and non-ASCII characters are saved without error and make the file unreadable; 3-d arrays leave half a block; proved for storable structs, with the round trip and the content after errors"
  },
  {
   "property": "C139",
   "status": "partial",
   "theorems": [
    "Verif.Archive.Mlab.C139_matlab",
    "Verif.Archive.Mlab.C139_cpp_partial",
    "Verif.Archive.Mlab.C139_append_to_cpp",
    "Verif.Archive.Mlab.C139_negation"
   ],
   "note": "Matlab finds the last value for every history; refuted for C++: a name that changes its kind is found twice; proved: last matrix and last string"
  },
  {
   "property": "C140",
   "status": "partial",
   "theorems": [
    "Verif.Archive.Mlab.C140_matlab_partial",
    "Verif.Archive.Mlab.C140_cpp_file_partial",
    "Verif.Archive.Mlab.C140_negation"
   ],
   "note": "refuted: a file cut off within a string is loaded silently with the beginning of the string; proved: everything else is exact, at every cut-off point, for files of both programs"
  },
  {
   "property": "C141",
   "status": "proved",
   "theorems": [
    "Verif.Timing.Table.C141_print",
    "Verif.Timing.Table.C141_sorted"
   ],
   "note": ""
  },
  {
   "property": "C142",
   "status": "proved",
   "theorems": [
    "Verif.Python.Plot.C142_show"
   ],
   "note": ""
  },
  {
   "property": "C143",
   "status": "proved",
   "theorems": [
    "Verif.Python.Frame.C143_frame"
   ],
   "note": ""
  },
  {
   "property": "C144",
   "status": "proved",
   "theorems": [
    "Verif.Archive.Lsma.C144_lists",
    "Verif.Archive.Lsma.C144_failure"
   ],
   "note": ""
  },
  {
   "property": "C145",
   "status": "partial",
   "theorems": [
    "Verif.Timing.Corrector.C145_partial",
    "Verif.Timing.Corrector.C145_switching_partial",
    "Verif.Timing.Corrector.C145_negation",
    "Verif.Timing.Corrector.C145_negation_increasing"
   ],
   "note": "refuted: the corrector to switch to survives reset(); an observation of a restarted remote clock is refused, and after the next switch old observations are used again; proved: like new if the switching form was not used before or is not used later, and, with later remote times, until the next switch"
  },
  {
   "property": "C146",
   "status": "partial",
   "theorems": [
    "Verif.Timing.Corrector.C146_partial",
    "Verif.Timing.Corrector.C146_negation"
   ],
   "note": "refuted: copies share the corrector they switch to; proved: all programs that copy only objects never used with a switching period, or whose source is destroyed"
  },
  {
   "property": "C147",
   "status": "partial",
   "theorems": [
    "Verif.Python.C147_product_partial",
    "Verif.Python.C147_image_partial",
    "Verif.Python.C147_points_partial",
    "Verif.Python.C147_negation"
   ],
   "note": "refuted: an uncertain left operand times an uncertain one seen as its base class silently lacks the latter's covariance; proved: exactly when the result is right, means always"
  },
  {
   "property": "C148",
   "status": "partial",
   "theorems": [
    "Verif.Kinematics.C148_partial",
    "Verif.Kinematics.C148_onto",
    "Verif.Kinematics.C148_unbounded",
    "Verif.Kinematics.C148_covariances",
    "Verif.Kinematics.C148_negation"
   ],
   "note": "refuted for angles below 2^-13, where the quaternion is too long by less than double precision; proved: everything else exactly, and bounds for those angles"
  },
  {
   "property": "C149",
   "status": "partial",
   "theorems": [
    "Verif.Kinematics.C149_partial",
    "Verif.Kinematics.C149_both_partial",
    "Verif.Kinematics.C149_negation"
   ],
   "note": "refuted: Eigen draws from std::rand, which seed does not touch; proved: angles, distances and everything without Eigen are reproducible, and everything after std::srand and seed"
  },
  {
   "property": "C150",
   "status": "proved",
   "theorems": [
    "Verif.Kinematics.C150_exponential",
    "Verif.Kinematics.C150_rotation_vector",
    "Verif.Kinematics.C150_quaternion",
    "Verif.Kinematics.C150_elementary",
    "Verif.Kinematics.C150_group",
    "Verif.Kinematics.C150_quaternion_group",
    "Verif.Kinematics.C150_inverse"
   ],
   "note": "over the reals"
  },
  {
   "property": "C151",
   "status": "proved",
   "theorems": [
    "Verif.Random.Conc.C151_own_outputs",
    "Verif.Random.Conc.C151_objects",
    "Verif.Random.Conc.C151_distinct",
    "Verif.Random.Conc.C151_progress"
   ],
   "note": "interleavings access by access, sequentially consistent (the lock orders all accesses)"
  },
  {
   "property": "C152",
   "status": "partial",
   "theorems": [
    "Verif.Random.Conc.C152_one_at_a_time_partial",
    "Verif.Random.Conc.C152_negation"
   ],
   "note": "refuted: no lock, two threads can be given the same number (a data race); proved: where the calls do not overlap, every call gets its own output"
  },
  {
   "property": "C153",
   "status": "partial",
   "theorems": [
    "Verif.Kinematics.C153_values_partial",
    "Verif.Kinematics.C153_right_partial",
    "Verif.Kinematics.C153_exactly_partial",
    "Verif.Kinematics.C153_negation"
   ],
   "note": "refuted: all inherited functions but normalize keep the covariance; proved: the values after every history, the right covariance of normalize and assignment, and exactly when the kept covariance is right"
  },
  {
   "property": "C154",
   "status": "partial",
   "theorems": [
    "Verif.Kinematics.C154_values_partial",
    "Verif.Kinematics.C154_covariance_partial",
    "Verif.Kinematics.C154_oplus_partial",
    "Verif.Kinematics.C154_negation"
   ],
   "note": "refuted: set, setIdentity and oplus keep the covariance; proved: the values and the covariance after every history, and what UOplus becomes"
  },
  {
   "property": "C155",
   "status": "partial",
   "theorems": [
    "Verif.Common.Ptime.C155_locals_partial",
    "Verif.Common.Ptime.C155_seconds32_partial",
    "Verif.Common.Ptime.C155_nanoseconds_partial",
    "Verif.Common.Ptime.C155_negation"
   ],
   "note": "refuted for every argument: the function has no return statement; proved: what the value it computes and forgets would be worth"
  },
  {
   "property": "C156",
   "status": "partial",
   "theorems": [
    "Verif.Python.Uncertain.C156_partial",
    "Verif.Python.Uncertain.C156_values_partial",
    "Verif.Python.Uncertain.C156_missing_partial",
    "Verif.Python.Uncertain.C156_arrays_partial",
    "Verif.Python.Uncertain.C156_negation"
   ],
   "note": "refuted: a scalar or a matrix on the left of an uncertain vector is an error, and of an array makes an array of scalars without covariances; proved: everything else agrees"
  },
  {
   "property": "C157",
   "status": "partial",
   "theorems": [
    "Verif.PTree.InfoFile.C157_read_written_partial",
    "Verif.PTree.InfoFile.C157_save_load_partial",
    "Verif.PTree.InfoFile.C157_include",
    "Verif.PTree.InfoFile.C157_include_children",
    "Verif.PTree.InfoFile.C157_negation"
   ],
   "note": "refuted: a key that begins with # is read as a directive (#include can pull in another file), a quoted key before a value that begins with an escape sequence makes the file unreadable, the value of the root is not written; proved: exactly the other trees come back; C94_reader ties the reader used for C94 to the full reader"
  },
  {
   "property": "C158",
   "status": "partial",
   "theorems": [
    "Verif.PTree.XmlFile.C158_document_partial",
    "Verif.PTree.XmlFile.C158_tree_partial",
    "Verif.PTree.XmlFile.C158_save_load_partial",
    "Verif.PTree.XmlFile.C158_root_datum",
    "Verif.PTree.XmlFile.C158_blank_lost",
    "Verif.PTree.XmlFile.C158_negation"
   ],
   "note": "refuted: a tree whose root has a value gives a file that cannot be read, values of white space are lost, in human readable mode runs of white space become one blank, keys that are no XML names give unreadable files; proved: every document of elements, attributes, texts and comments within these limits comes back for all settings of the flags, also written with one setting and read with another"
  },
  {
   "property": "C159",
   "status": "partial",
   "theorems": [
    "Verif.PTree.IniFile.C159_iff_partial",
    "Verif.PTree.IniFile.C159_reload_partial",
    "Verif.PTree.IniFile.C159_saved_partial",
    "Verif.PTree.IniFile.C159_order_partial",
    "Verif.PTree.IniFile.C159_save_load_partial",
    "Verif.PTree.IniFile.C159_comment_lost",
    "Verif.PTree.IniFile.C159_negation"
   ],
   "note": "refuted: entries behind a section move in front of it, white space around keys and values and entries whose key begins with # or ; are lost silently, an = in a key moves to the value; proved: exactly the canonical trees come back, everything that was loaded comes back after saving, exactly when saving throws"
  },
  {
   "property": "C160",
   "status": "partial",
   "theorems": [
    "Verif.PTree.JsonFile.C160_saved_partial",
    "Verif.PTree.JsonFile.C160_exact_partial",
    "Verif.PTree.JsonFile.C160_reload_partial",
    "Verif.PTree.JsonFile.C160_save_load_partial",
    "Verif.PTree.JsonFile.C160_negation"
   ],
   "note": "refuted: a key or value that is not UTF-8 (e.g. Latin-1) is saved without complaint but the file is refused by load; proved: exactly when saving throws, exactly which saved trees come back (those of UTF-8 texts), everything loaded from an object or array comes back after saving"
  },
  {
   "property": "C161",
   "status": "partial",
   "theorems": [
    "Verif.KinematicsDouble.C161_single",
    "Verif.KinematicsDouble.C161_roundtrip",
    "Verif.KinematicsDouble.C161_stable_partial",
    "Verif.KinematicsDouble.C161_negation"
   ],
   "note": "refuted for repeated conversions: the quaternion read from a matrix is not normalized and for rotations whose quaternion has no component with a square over 1/2 the error of its length grows by a constant factor per conversion until the rotation is lost (shown, for every rounding, from a matrix precise to 2^-26 within 120 conversions); proved: one conversion, one round trip of every built transformation, and repeated conversions (up to 2^25) when one component has a square of at least 3/5"
  },
  {
   "property": "C162",
   "status": "partial",
   "theorems": [
    "Verif.KinematicsDouble.C162_normalized",
    "Verif.KinematicsDouble.C162_assertion",
    "Verif.KinematicsDouble.C162_accuracy",
    "Verif.KinematicsDouble.C162_accuracy_long",
    "Verif.KinematicsDouble.C162_translation",
    "Verif.KinematicsDouble.C162_rotation_vector_partial",
    "Verif.KinematicsDouble.C162_negation"
   ],
   "note": "refuted: for rotation vectors just shorter than 2^-13 axisAngle2quat is off by more than 2^-46, whatever the rounding and the C library, because the series it uses has the wrong sign; everything else is proved, with the bound 2^-43 for such vectors"
  },
  {
   "property": "C163",
   "status": "proved",
   "theorems": [
    "Verif.PTree.JsonFile.C163_read",
    "Verif.PTree.JsonFile.C163_unique",
    "Verif.PTree.JsonFile.C163_load"
   ],
   "note": "the grammar (PTree/JsonGrammar.lean) is written after the RFC, independently of the reader; where boost's reader is laxer (byte order mark, raw control characters, bytes of characters only counted) the grammar says so"
  },
  {
   "property": "C164",
   "status": "partial",
   "theorems": [
    "Verif.PTree.XmlFile.C164_read_partial",
    "Verif.PTree.XmlFile.C164_unique",
    "Verif.PTree.XmlFile.C164_load_partial",
    "Verif.PTree.XmlFile.C164_negation"
   ],
   "note": "refuted: the reader also accepts files that are no XML documents (several root elements, attributes without white space between them, a lone &, and wrong closing tags where boost does not compare them); proved: every document of the grammar (PTree/XmlGrammar.lean, written after the recommendation) is read as the tree it stands for, for all settings"
  },
  {
   "property": "C165",
   "status": "proved",
   "theorems": [
    "Verif.PTree.IniFile.C165_read",
    "Verif.PTree.IniFile.C165_unique",
    "Verif.PTree.IniFile.C165_load"
   ],
   "note": "the grammar (PTree/IniGrammar.lean) says line by line what a file means, independently of the reader"
  },
  {
   "property": "C166",
   "status": "proved",
   "theorems": [
    "Verif.PTree.InfoFile.C166_read",
    "Verif.PTree.InfoFile.C166_unique",
    "Verif.PTree.InfoFile.C166_load"
   ],
   "note": "the grammar (PTree/InfoGrammar.lean) is context-free over tokens and independent of the reader's stack machine; where boost is lax (a last continued string without its end, text behind a zero character, included children behind the current one) the grammar says so"
  },
  {
   "property": "C167",
   "status": "partial",
   "theorems": [
    "Verif.PTree.Codecs.C167_string",
    "Verif.PTree.Codecs.C167_int",
    "Verif.PTree.Codecs.C167_bool",
    "Verif.PTree.Codecs.C167_double_partial",
    "Verif.PTree.Codecs.C167_nonfinite",
    "Verif.PTree.Codecs.C167_negation"
   ],
   "note": "refuted for infinities and NaNs, which are written but cannot be read; proved for every string, int, bool and finite double, for any nearest rounding in both directions"
  },
  {
   "property": "C168",
   "status": "proved",
   "theorems": [
    "Verif.PTree.Codecs.C168_getInt",
    "Verif.PTree.Codecs.C168_getBool",
    "Verif.PTree.Codecs.C168_getDouble",
    "Verif.PTree.Codecs.C168_unique",
    "Verif.PTree.Codecs.C168_bool_negation"
   ],
   "note": "boost's translators in the classic locale are environment, modelled in PTree/Codecs.lean; C168_bool_negation shows the quirk of the truth values: 2true is true"
  },
  {
   "property": "C169",
   "status": "proved",
   "theorems": [
    "Verif.KinematicsDouble.C169_reads",
    "Verif.KinematicsDouble.C169_errors",
    "Verif.KinematicsDouble.C169_reload"
   ],
   "note": "the texts, boost's conversions (C167, C168) and the arithmetic in doubles; the library normalises twice, once in the conversion and once in the constructor"
  },
  {
   "property": "C170",
   "status": "proved",
   "theorems": [
    "Verif.PTree.Session.C170_session",
    "Verif.PTree.Session.C170_info",
    "Verif.PTree.Session.C170_xml",
    "Verif.PTree.Session.C170_json",
    "Verif.PTree.Session.C170_ini"
   ],
   "note": "end to end: conversions (C167), trees (C26) and file formats (C157-C160) composed"
  },
  {
   "property": "C171",
   "status": "partial",
   "theorems": [
    "Verif.Timing.Machine.C171_negation",
    "Verif.Timing.Machine.C171_double_partial",
    "Verif.Timing.Machine.C171_int64_partial",
    "Verif.Timing.Machine.C171_throws"
   ],
   "note": "refuted: offset + slope * r differs from getLocalTime(r) by more than a nanosecond for times since 1970; proved: error bounds for doubles and int64"
  },
  {
   "property": "C172",
   "status": "partial",
   "theorems": [
    "Verif.CovDouble.C172_negation",
    "Verif.CovDouble.C172_product",
    "Verif.CovDouble.C172_semidefinite_partial",
    "Verif.CovDouble.C172_move",
    "Verif.CovDouble.C172_inverse",
    "Verif.CovDouble.C172_rotate",
    "Verif.CovDouble.C172_movePoint",
    "Verif.CovDouble.C172_image",
    "Verif.CovDouble.C172_point"
   ],
   "note": "refuted: exact symmetry and semidefiniteness; proved: error bounds for every order of summation"
  },
  {
   "property": "C173",
   "status": "partial",
   "theorems": [
    "Verif.KinematicsDouble.C173_full_turn",
    "Verif.KinematicsDouble.C173_negation",
    "Verif.KinematicsDouble.C173_log",
    "Verif.KinematicsDouble.C173_log_long",
    "Verif.KinematicsDouble.C173_short",
    "Verif.KinematicsDouble.C173_exp_log",
    "Verif.KinematicsDouble.C173_log_exp"
   ],
   "note": "refuted at the quaternion -1; proved everywhere else but within 2^-20 of it"
  },
  {
   "property": "C174",
   "status": "partial",
   "theorems": [
    "Verif.KinematicsDouble.C174_second_negation",
    "Verif.KinematicsDouble.C174_between_negation",
    "Verif.KinematicsDouble.C174_unit",
    "Verif.KinematicsDouble.C174_ends",
    "Verif.KinematicsDouble.C174_rotation",
    "Verif.KinematicsDouble.C174_translation",
    "Verif.KinematicsDouble.C174_interpolated",
    "Verif.KinematicsDouble.C174_order",
    "Verif.KinematicsDouble.C174_outside_partial",
    "Verif.KinematicsDouble.C174_fraction_partial"
   ],
   "note": "refuted for time spans under 1e-14 and for the exact bounds of the coordinates; proved for spans of at least 2^-46, and up to rounding"
  },
  {
   "property": "C175",
   "status": "partial",
   "theorems": [
    "Verif.EulerDouble.C175_negation",
    "Verif.EulerDouble.C175_matrix",
    "Verif.EulerDouble.C175_angles_partial",
    "Verif.EulerDouble.C175_round_trip",
    "Verif.EulerDouble.C175_pose_partial",
    "Verif.EulerDouble.C175_range_partial"
   ],
   "note": "refuted at the gimbal lock; proved away from it"
  },
  {
   "property": "C176",
   "status": "partial",
   "theorems": [
    "Verif.Format.C176_fixedFloat",
    "Verif.Format.C176_fixed_unique",
    "Verif.Format.C176_fixed_mono",
    "Verif.Format.C176_padded",
    "Verif.Format.C176_padded_negation",
    "Verif.Format.C176_padded_call_partial",
    "Verif.Format.C176_readback_negation",
    "Verif.Format.C176_readback_partial",
    "Verif.Format.C176_scientific",
    "Verif.Format.C176_scientific_readback",
    "Verif.Format.C176_scientific_width_negation",
    "Verif.Format.C176_scientific_width_partial",
    "Verif.Format.C176_paddedToString",
    "Verif.Format.C176_columns",
    "Verif.Format.C176_stream_negation",
    "Verif.Format.C176_stream_partial",
    "Verif.Format.C176_tuple",
    "Verif.Format.C176_tuple_inj",
    "Verif.Format.C176_ts_negation",
    "Verif.Format.C176_ts_partial"
   ],
   "note": "five of the claims refuted with what remains true proved; the rest proved"
  },
  {
   "property": "C177",
   "status": "partial",
   "theorems": [
    "Verif.RotVecDouble.C177_matrix",
    "Verif.RotVecDouble.C177_axis_angle",
    "Verif.RotVecDouble.C177_params_partial",
    "Verif.RotVecDouble.C177_round_trip",
    "Verif.RotVecDouble.C177_pose_partial",
    "Verif.RotVecDouble.C177_finite",
    "Verif.RotVecDouble.C177_negation"
   ],
   "note": "that short rotation vectors come back is refuted; the bound with the sine of the angle is proved"
  },
  {
   "property": "C178",
   "status": "partial",
   "theorems": [
    "Verif.ErDouble.C178_matrix",
    "Verif.ErDouble.C178_smatrix",
    "Verif.ErDouble.C178_params_partial",
    "Verif.ErDouble.C178_round_trip",
    "Verif.ErDouble.C178_pose_partial",
    "Verif.ErDouble.C178_params_negation",
    "Verif.ErDouble.C178_round_trip_negation",
    "Verif.ErDouble.C178_matrix_negation"
   ],
   "note": "that the parameters of a computed rotation are always numbers is refuted (no clamping); the bound with the sine of the angle is proved"
  },
  {
   "property": "C179",
   "status": "partial",
   "theorems": [
    "Verif.HomDouble.C179_round_trip",
    "Verif.HomDouble.C179_columns",
    "Verif.HomDouble.C179_infinity",
    "Verif.HomDouble.C179_arithmetic",
    "Verif.HomDouble.C179_euclidean",
    "Verif.HomDouble.C179_plus",
    "Verif.HomDouble.C179_minus",
    "Verif.HomDouble.C179_jacobian",
    "Verif.HomDouble.C179_normalize",
    "Verif.HomDouble.C179_direction",
    "Verif.HomDouble.C179_sum_negation",
    "Verif.HomDouble.C179_conversion_negation"
   ],
   "note": "that sums of moderate points are finite, and that every point in the unit cube is converted, are refuted (the weights multiply; the reciprocal of a tiny weight overflows); the rest is proved"
  },
  {
   "property": "C180",
   "status": "partial",
   "theorems": [
    "Verif.DiffDouble.C180_points",
    "Verif.DiffDouble.C180_error",
    "Verif.DiffDouble.C180_affine",
    "Verif.DiffDouble.C180_identity_partial",
    "Verif.DiffDouble.C180_zero",
    "Verif.DiffDouble.C180_identity_negation",
    "Verif.DiffDouble.C180_step_negation"
   ],
   "note": "that the Jacobian of the identity is exactly the identity, and that every positive step factor moves the point, are refuted; the bound with 1/(eps 2^53) is proved"
  },
  {
   "property": "C181",
   "status": "partial",
   "theorems": [
    "Verif.AngleDouble.C181_angleMod",
    "Verif.AngleDouble.C181_inside",
    "Verif.AngleDouble.C181_half",
    "Verif.AngleDouble.C181_nonfinite",
    "Verif.AngleDouble.C181_degrees",
    "Verif.AngleDouble.C181_round_trip",
    "Verif.AngleDouble.C181_idempotent_negation",
    "Verif.AngleDouble.C181_range_negation",
    "Verif.AngleDouble.C181_half_turn_negation"
   ],
   "note": "idempotence, the exact range [-pi, pi] and the exactness of half a turn are refuted; the bounds with the rounding errors are proved"
  },
  {
   "property": "C182",
   "status": "proved",
   "theorems": [
    "Verif.RateDouble.C182_smatrix",
    "Verif.RateDouble.C182_velocity",
    "Verif.RateDouble.C182_gimbal"
   ],
   "note": ""
  },
  {
   "property": "C183",
   "status": "proved",
   "theorems": [
    "Verif.ErRate.C183_velocity",
    "Verif.ErRate.C183_agree"
   ],
   "note": ""
  },
  {
   "property": "C184",
   "status": "proved",
   "theorems": [
    "Verif.RvRate.C184_smatrix",
    "Verif.RvRate.C184_velocity"
   ],
   "note": ""
  },
  {
   "property": "C185",
   "status": "partial",
   "theorems": [
    "Verif.RvInv.C185_short",
    "Verif.RvInv.C185_zero",
    "Verif.RvInv.C185_negation",
    "Verif.RvInv.C185_accurate_partial"
   ],
   "note": "false in general: below 2^-28 no entry of the returned matrix is finite; proved for the zero vector and for lengths between 2^-20 and 6, with the error growing as the length shrinks; missing: lengths from 2^-28 to 2^-20"
  },
  {
   "property": "C186",
   "status": "proved",
   "theorems": [
    "Verif.MatDouble.C186_inverse",
    "Verif.MatDouble.C186_point",
    "Verif.MatDouble.C186_inverse_point"
   ],
   "note": ""
  },
  {
   "property": "C187",
   "status": "proved",
   "theorems": [
    "Verif.ExpDiff.C187_expDiffMat",
    "Verif.ExpDiff.C187_zero",
    "Verif.ExpDiff.C187_jacobian"
   ],
   "note": ""
  },
  {
   "property": "C188",
   "status": "proved",
   "theorems": [
    "Verif.LogDiff.C188_logDiffMat",
    "Verif.LogDiff.C188_inverse",
    "Verif.LogDiff.C188_zero"
   ],
   "note": ""
  },
  {
   "property": "C189",
   "status": "partial",
   "theorems": [
    "Verif.LerpDouble.C189_size",
    "Verif.LerpDouble.C189_ends",
    "Verif.LerpDouble.C189_nan",
    "Verif.LerpDouble.C189_between",
    "Verif.LerpDouble.C189_range_negation"
   ],
   "note": "the interpolated point may leave the range of its end points by a rounding (refuted); the rest is proved"
  },
  {
   "property": "C190",
   "status": "partial",
   "theorems": [
    "Verif.LogJac.C190_negation",
    "Verif.LogJac.C190_identity",
    "Verif.LogJac.C190_left_partial"
   ],
   "note": "finiteness for every unit quaternion is refuted by the identity; the accuracy of the first three columns is proved, that of the last one is missing"
  }
 ]
}