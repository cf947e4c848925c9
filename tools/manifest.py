#!/usr/bin/env python3
"""Writes MANIFEST.json from the table below (run from /verif)."""
import json
C = []
def c(p, status, ns, thms, note=""):
    C.append({"property": p, "status": status, "theorems": [ns + "." + t for t in thms.split()], "note": note})

J = "Verif.JobQueue"
c("C01", "proved", J, "C01_conservation C01_handing_out C01_no_ub", "every interleaving of the LTS model of JobQueue")
c("C02", "proved", J, "C02_wait_returns_idle")
c("C03", "proved", J, "C03_parallelism")
c("C04", "proved", J, "C04_stop_bound C04_stop_final")
c("C05", "partial", J, "C05_negation C05_partial", "the claim is false of the code (refuted); the part that holds is proved")
c("C06", "partial", J, "C06_negation C06_partial C06_dtor_completes", "the claim is false of the code (refuted); the part that holds is proved")
c("C07", "proved", J, "C07_no_stall C07_no_lost_waiter C07_runs_are_finite C07_liveness C07_wait_after_stop_blocks")
c("C08", "proved", "Verif.Id", "C08_total_order C08_unset")
c("C09", "proved", "Verif.Id", "C09_increments_distinct C09_increment_results")
H = "Verif.HashId"
c("C10", "proved", H, "C10_hexString_form C10_round_trip C10_hexString_injective")
c("C11", "partial", H, "C11_negation C11_accepts_malformed C11_throws_half_written C11_partial", "the claim is false of the code (refuted)")
c("C12", "proved", H, "C12_order C12_validity_and_words C12_hash_sensitive")
N = "Verif.Numeric"
c("C13", "proved", N, "C13_trichotomy C13_refuses C13_laws")
c("C14", "proved", N, "C14_quadratic C14_linear C14_sgn")
c("C15", "partial", N, "C15_round C15_lrint_negation C15_int_partial", "lrint through an int cast is wrong outside the int range (refuted)")
S = "Verif.Strings"
c("C16", "partial", S, "C16_negation C16_replace_hangs C16_replace_reverse_wraps C16_replace_partial C16_replace_reverse_partial C16_spec_meaning", "the claim is false of the code (refuted)")
c("C17", "proved", S, "C17_ensureTrailingBackslash C17_leading_pad C17_arrToString")
c("C18", "proved", S, "C18_substitute C18_meaning")
A = "Verif.Archive"
c("C19", "proved", A, "C19_round_trip C19_size_limit")
c("C20", "proved", A, "C20_filtered_transfer")
c("C21", "proved", A, "C21_setters C21_createMatrix C21_getters C21_size")
c("C22", "partial", A, "C22_negation C22_partial", "the claim is false of the code (refuted)")
c("C23", "partial", A, "C23_negation C23_partial", "the claim is false of the code (refuted)")
c("C24", "partial", A, "C24_names C24_bad_start C24_bad_end C24_truncation_ub C24_truncation_negation C24_createMatrix_breaks_save", "the truncation half is false of the code (refuted)")
P = "Verif.PTree"
c("C25", "proved", P, "C25_qualified C25_child_views C25_trailing_slash C25_below_namespace C25_child_get")
c("C26", "proved", P, "C26_set_get C26_set_fails_iff")
c("C27", "proved", P, "C27_defaults")
c("C28", "partial", P, "C28_negation C28_dotted_key C28_merge_partial C28_plain_partial C28_update_only_partial", "false for sources with empty or dotted keys (refuted); proved for all others")
c("C29", "proved", P, "C29_nesting C29_fails_iff C29_balanced")
L = "Verif.PTree.Loader"
c("C30", "proved", L, "C30_terminates C30_loaded_once")
c("C31", "proved", L, "C31_last_file_wins C31_marked_files_add_nothing C31_order C31_parents", "for files whose keys boost can address (see C28)")
c("C32", "partial", L, "C32_negation C32_dot_names_are_searched C32_partial", "the fallback and ./ clauses are false of the code (refuted)")
V = "Verif.ValueStore"
c("C33", "partial", V, "C33_first_layer C33_layered_partial C33_negation C33_child C33_children C33_child_supported", "false for a layering of no stores (refuted); proved for every non-empty layering")
c("C34", "partial", V, "C34_renaming_partial C34_exists_negation C34_child_negation C34_child_partial C34_ref_child", "existence and children are wrong in the code (refuted); the rest is proved")
c("C35", "proved", V, "C35_reads C35_add C35_children_partial")
c("C36", "partial", V, "C36_negation C36_first_present_partial C36_fallback_partial C36_missing_message", "messages are tried as candidates (refuted)")
c("C63", "proved", V, "C63_as_tree")
T = "Verif.Timing"
c("C37", "proved", T, "C37_chrono C37_chrono_coarse C37_seconds C37_seconds_rounded C37_seconds_double")
c("C38", "partial", T, "C38_negation C38_partial", "the result is inverted in the code (refuted)")
c("C39", "proved", T, "C39_handles C39_unknown")
c("C40", "proved", T, "C40_statistics C40_records")
c("C41", "partial", T, "C41_partial C41_negation", "seconds can print as 60.000000 (refuted)")
K = "Verif.Timing.Corrector"
c("C42", "proved", K, "C42_hull C42_convex")
c("C43", "proved", K, "C43_line C43_returned")
c("C44", "partial", K, "C44_negation C44_partial", "a stale segment index is used when the hull shrinks to two points (refuted)")
c("C64", "partial", K, "C64_switching C64_monotone_partial C64_negation", "safety, acceptance and hull proved for every run; times can go backwards at a switch (refuted), never with one corrector (proved)")
G = "Verif.Logging"
GC = "Verif.Logging.Config"
c("C45", "proved", GC, "C45_flags C45_statement C45_calls", "any interleaving of any number of threads; sequentially consistent memory")
c("C46", "partial", GC, "C46_negation C46_partial", "a lock-order inversion deadlocks (refuted); without enable/disableNamedStream no deadlock (proved)")
c("C47", "partial", G, "C47_normalised C47_negation C47_partial", "names sm / sm.x given to *_NAMED denote other streams than given to enableNamedStream (refuted)")
C[-1]["theorems"].append(GC + ".C47_last_call")
c("C48", "proved", G, "C48_once C48_throttle")
c("C49", "proved", G, "C49_lossless C49_text C49_substitution C49_unknown C49_values C49_print")
c("C50", "proved", G, "C50_names C50_lower C50_order")
c("C65", "partial", G, "C65_delivery C65_negation C65_partial", "a logger that throws a non-std exception silences the thread (refuted)")
c("C66", "proved", G, "C66_whole")
KI = "Verif.Kinematics"
c("C51", "proved", KI, "C51_product C51_inverse C51_norm C51_matrices", "over the reals")
c("C52", "proved", KI, "C52_rotation C52_homomorphism C52_double_cover C52_rotate", "over the reals")
c("C53", "proved", KI, "C53_left_inverse C53_right_inverse", "over the reals")
c("C54", "partial", KI, "C54_negation C54_partial C54_exp_log_partial C54_log_exp_partial C54_exp_log_negative_partial C54_log_exp_long_partial C54_exp_log_small_partial C54_log_exp_small_partial", "the small-angle series has the wrong sign (refuted); proved outside that branch, error bounded inside it, for every unit quaternion except -1 and every rotation vector shorter than 2 pi")
c("C55", "proved", KI, "C55_elementary C55_rph C55_recovers C55_onto C55_singularity", "over the reals")
c("C56", "partial", KI, "C56_negation C56_partial C56_vector_partial C56_log_partial", "negative angles give the identity (refuted); proved for the others")
c("C67", "proved", KI, "C67_angleMod C67_degrees", "over the reals")
c("C57", "proved", KI, "C57_unit C57_matrix C57_action C57_group C57_functions C57_euler", "over the reals; every transformation a user can build")
c("C58", "proved", KI, "C58_conversion C58_arithmetic C58_transform C58_directions C58_columns C58_jacobians C58_oplus_jacobians", "over the reals")
c("C59", "proved", KI, "C59_vectors C59_scalars C59_points C59_transformations C59_roundtrip C59_consistent C59_diagonal", "over the reals")
c("C62", "proved", KI, "C62_operators C62_jacobians C62_composition C62_updates", "over the reals")
c("C68", "partial", KI, "C68_vectors C68_scalars C68_points C68_transformations C68_points_negation C68_difference_negation C68_mixed_negation C68_points_partial C68_point_values", "the difference of uncertain points and sums with certain points are wrong (refuted); everything else is proved")
c("C60", "partial", KI, "C60_ends C60_slerp_partial C60_slerp_close C60_slerpTransformations C60_interpolate C60_negation", "the claim that every intermediate quaternion is exactly unit is false in the series branch (C60_negation): there within 1e-12 of the exact point and |q|^2 < 1+2e-17; everything else proved")
c("C61", "proved", KI, "C61_euler_rotations C61_euler_smatrix C61_euler_velocity C61_rodriguez C61_rotvec_smatrix C61_rotvec_small C61_rotvec_inverse C61_rotvec_velocity C61_regular", "rotation vectors shorter than 1e-14: error bounds instead")
c("C69", "partial", KI, "C69_euler_recovers C69_euler_onto C69_every_rotation C69_from_matrix_partial C69_recovers_partial C69_negation", "false for half turns (RotationVector and EulerRodriguez return zero): C69_negation; proved on the complement")
c("C70", "partial", KI, "C70_exp_jacobian C70_exp_jacobian_zero C70_exp_jacobian_small_partial C70_negation C70_inverse C70_log_jacobian C70_log_jacobian_all C70_log_jacobian2 C70_update", "false for rotation vectors between 0 and 1/8192 (C70_negation), where the error is bounded; the logarithm's Jacobian is proved where the vector part is longer than 1/8192")
c("C71", "partial", P, "C71_children_partial C71_negation", "false for namespaces that contain a dot (refuted); proved for all others")
c("C72", "proved", KI, "C72_optimal C72_exact C72_recovers", "over the reals; Eigen's SVD by its contract")
c("C73", "proved", KI, "C73_optimal C73_exact C73_recovers C73_contract", "over the reals; Eigen's symmetric eigen solver by its contract")
S = "Verif.Serial"
c("C74", "partial", S, "C74_negation C74_first_partial C74_single_partial C74_verbose_partial", "the macros are not parenthesised: a conjunction only tests its first check (refuted)")
c("C75", "partial", S, "C75_points C75_others_partial C75_complete_partial C75_negation", "Transformation, UncertainTransformation and UncertainVector ignore a member (refuted)")
c("C76", "partial", S, "C76_partial C76_negation", "pointers to pointers are compared by address or do not compile (refuted); objects and pointers to objects proved")
c("C77", "partial", S + ".Cv", "C77_partial C77_prefix_partial C77_negation C77_overread", "only the number of rows is checked (refuted); proved for matrices of equal width and type")
c("C78", "partial", S + ".Cv", "C78_partial C78_row_negation C78_overread C78_view_negation C78_keypoints", "false for one-row views and for loading into a view of the same size (refuted); proved for everything else")
SB = S + ".Boost"
c("C79", "partial", SB, "C79_roundtrip_partial C79_mismatch_partial C79_order_partial C79_order_negation C79_empty_negation", "false for another storage order and for empty matrices in types with fixed rows and dynamic columns (refuted); proved for everything else")
c("C80", "proved", SB, "C80_roundtrip C80_version", "boost::serialization by its contract")
c("C81", "proved", SB, "C81_files C81_tag C81_member_names", "boost::serialization and the file system by their contract")
c("C82", "partial", SB, "C82_partial C82_negation C82_not_atomic", "false for text files cut inside the last number (refuted); proved for binary and XML files")
R = "Verif.Random"
c("C83", "proved", R, "C83_reproducible C83_uniform", "boost::random by its contract (ResetOk); also shows that only 32 bits of the seed count")
c("C84", "partial", R, "C84_range_partial C84_negation C84_double_partial C84_overflow C84_double_negation", "the upper bound is reached for very narrow intervals (refuted for [1, 1+2^-52)), and bounds whose difference overflows give infinity or NaN (refuted); otherwise lo <= x <= hi always, and x < hi if the interval is not narrower than 2^-18 of its larger end")
c("C85", "partial", R, "C85_range_partial C85_negation C85_onto C85_uniform", "hi - lo overflows for bounds more than INT_MAX apart (refuted); everything else proved")
E = "Verif.SmEigen"
c("C86", "proved", E, "C86_points C86_exact C86_error C86_limit", "over the reals")
c("C87", "proved", E, "C87_sqrt C87_only", "over the reals; Eigen's LDLT by its contract (IsLdlt)")
c("C88", "partial", E, "C88_randomCovariance C88_compareRelative_partial C88_negation C88_assertMat C88_expect_negation C88_expect_partial C88_finite", "compareRelative accepts NaN and infinities, expectNear reads out of bounds when the sizes differ (refuted); everything else proved")
A = "Verif.Assert"
c("C89", "partial", A, "C89_rel C89_rel_partial C89_range C89_range_partial C89_sign_partial C89_sign_fp_partial C89_bool C89_near C89_finite C89_throw C89_negation C89_text_negation", "NaN passes all order assertions, and SM_ASSERT_NONPOSITIVE prints the wrong relation (refuted); proved for everything else")
c("C90", "partial", A, "C90_once_partial C90_debug C90_negation C90_debug_negation", "the range assertions evaluate the value twice (refuted); proved for the others and for the debug switch")
c("C91", "partial", A, "C91_text C91_grouping C91_assert C91_exact C91_partial C91_negation", "SM_ASSERT_CMD does not parenthesise its condition (refuted, including the documented example; C91_exact says what it does); SM_ASSERT and SM_ASSERT_MSG proved")
c("C92", "proved", KI, "C92_reads C92_errors C92_roundtrip", "over the reals; the zero quaternion (NaN in C++) is excluded by hypothesis; boost's text conversion is a parameter")
c("C93","partial","Verif.Traits","C93_negation C93_partial C93_add C93_total","false for rvalue references and constant pointers (refuted); proved otherwise")
c("C94","partial","Verif.PTree","C94_negation C94_tree C94_assignments C94_partial C94_comment C94_unclosed C94_blank_cuts","false for assignments that share their first key and for values with blanks (refuted); boost's INFO reader is modelled for text without quotation marks")
c("C95","proved","Verif.PTree","C95_format C95_errors C95_save_load","boost's readers and writers are parameters")
c("C96","proved","Verif.PTree","C96_findFile","")
M="Verif.Matlab"
c("C97","partial",M,"C97_negation C97_partial C97_put_reported","false for empty strings and empty matrices (refuted); the MATLAB engine library by its contract")
c("C98","partial",M,"C98_negation C98_partial C98_exceptions_partial C98_testers","false for 64-bit integer and complex variables, and the matrix is resized before a type error (refuted)")
c("C99","partial",M,"C99_negation C99_partial","the check accepts the empty name, leading underscores and names of any length (refuted); keywords not considered")
c("C100","partial",M,"C100_negation C100_partial","the testers and get(string) leak (refuted); exact account of every call")
c("C101","partial",M,"C101_negation C101_partial C101_uninitialized","false for Engine(false), copies, and debug builds in which closing fails (refuted)")
c("C102","partial",M,"C102_negation C102_partial C102_output","false for an unterminated last line and long lines (refuted)")
PY = "Verif.Python"
c("C103", "partial", PY, "C103_order C103_points_partial C103_exact_partial C103_certain_partial C103_values_partial C103_negation C103_uncertain_negation C103_points", "products with an uncertain right operand and the inverse drop uncertainties (refuted); the general order theorem and the exact behaviour are proved")
c("C104", "partial", PY, "C104_transformation_partial C104_exact_partial C104_negation C104_refuses_partial", "pickling an uncertain transformation loses its covariance (refuted)")
VS = "Verif.ValueStore"
c("C105", "partial", PY, "C105_round_trip_partial C105_value_partial C105_from_partial C105_order_partial C105_negation", "ids from 2^63 on are negative and out-of-range numbers are accepted (refuted)")
c("C106", "partial", PY, "C106_unnamed_partial C106_named_partial C106_prefix_partial C106_raw_partial C106_negation", "logVerbose raises, named events carry the bare name, names that begin with sm. differ (refuted)")
c("C107", "partial", VS, "C107_reads C107_update_partial C107_later_partial C107_const_partial C107_default_partial C107_negation", "handles taken with a default are constant (refuted); everything else holds")
c("C108", "partial", VS, "C108_getChild_partial C108_getChild_update_partial C108_getChildren_partial C108_verbose_children_partial C108_frame C108_negation C108_child_reads", "children from getChildren are copies (refuted)")
c("C109", "partial", VS, "C109_get_partial C109_others_partial C109_tags C109_negation C109_children_partial", "the DEFAULT mark only says that the key is missing (refuted)")
c("C110", "partial", VS, "C110_add C110_exact_partial C110_negation C110_extendible_child", "children save and test the whole tree (refuted)")
c("C111", "partial", PY, "C111_store_partial C111_types_partial C111_negation", "a key whose present value has another type cannot be set (refuted)")
c("C112", "partial", "Verif.Timing.Machine", "C112_safe_partial C112_query_partial C112_negation C112_special_negation", "proved for remote times up to 2^1022 and any local times; the sum of larger ones overflows and the last piece is read outside the hull (refuted), likewise after a NaN or -inf")
c("C113", "partial", "Verif.Timing.Machine", "C113_hull_partial C113_accuracy_partial C113_negation", "times up to 2^64 and at least 2^-64 apart; error bounds proved; the result can be later than the local time (refuted)")
c("C114", "partial", "Verif.Timing.Machine", "C114_safe_partial C114_negation C114_midpoint_negation", "proved for times within 2^31 of each other, small or 258 apart; otherwise signed overflow in the determinant or an index of -1 (refuted)")
c("C115", "partial", "Verif.Timing.Machine", "C115_accuracy_partial C115_negation", "error bound proved; nanoseconds since 1970 are off by up to hundreds (refuted)")
c("C116", "partial", "Verif.NumericDouble", "C116_order_partial C116_default_exact_partial C116_accuracy_partial C116_refuses C116_negation C116_special_negation", "proved for all finite doubles; infinities are approximately equal to everything but themselves (refuted)")
c("C117", "partial", "Verif.NumericDouble", "C117_accepts_partial C117_accuracy_partial C117_double_zero C117_accepts_negation C117_rejects_negation C117_overflow_negation", "accuracy proved for coefficients zero or between 2^-200 and 2^200; refuted: a discriminant of -3 is computed as 0, 4*c and b*b can overflow")
c("C118", "partial", "Verif.NumericDouble", "C118_round_partial C118_negation", "proved below 2^52 with one exception (the double before 1/2) and from 2^53 on; odd numbers between are rounded up by one (refuted)")
KD = "Verif.KinematicsDouble"
c("C119", "partial", KD, "C119_chain C119_product C119_assertion C119_negation", "proved with explicit error for up to 2^40 products, the assertion for up to 2^30; without a bound on the length the norm drifts away (refuted), nothing renormalizes")
c("C120", "proved", KD, "C120_unit C120_assertion", "quaternions passed to constructors finite and of norm between 2^-200 and 2^200; the order of Eigen's sums and its way of dividing a vector are parameters")
c("C121", "proved", KD, "C121_rotation C121_translation C121_point", "rotation bound for up to 2^40 steps, translation bound for up to 2^20; an absolute term of 2^-250 covers underflow")
c("C122", "proved", KD, "C122_matrix C122_entries", "")
c("C123","partial",A,"C123_prefix C123_complete C123_alarm C123_small_negation C123_negation C123_loss_partial C123_unbuffered_partial C123_atomic_negation C123_leftover","proved: prefix, completeness with room, no false alarm, content of leftovers; refuted: 'normal return means complete file' (close() unchecked; at most a buffer is lost, none without buffer) and atomic replacement")
c("C124","proved",A,"C124_names C124_matrices C124_strings C124_size C124_converters","")
c("C125","partial","Verif.Logging.Statement","C125_effects C125_prints C125_arguments C125_name_negation C125_name_partial","proved in full except that the sub-claim 'a _NAMED statement follows its name argument' is refuted; it holds when the argument always has the same value")
c("C126","partial","Verif.Logging.Statement","C126_enabled C126_silent C126_silent_named C126_negation C126_package_partial","refuted for package names other than sm and sm.…; proved for these")
c("C127","partial","Verif.JobQueue","C127_futures C127_stable C127_all_ready C127_after_destructor C127_negation C127_terminate_partial C127_terminate_exact C127_join_negation C127_join_partial","futures are characterised exactly; refuted: a throwing job scheduled with scheduleWork terminates the process (proved: only such jobs do), and after join() futures of jobs left in the queue stay waiting until the queue is destroyed (proved exactly those)")
c("C128","partial","Verif.JobQueue","C128_no_call_returns C128_negation C128_deadlock C128_earlier_partial","refuted: jobs that wait for futures of jobs scheduled later can block the whole pool for good (general deadlock theorem); proved: no deadlock, for every pool size, if jobs wait only for futures of jobs scheduled before them")
c("C129","partial","Verif.Timing","C129_extremes C129_total C129_mean_variance_partial C129_stddev_partial C129_one_sample C129_laps_partial C129_five_laps_negation C129_negation","count, extremes exact, error bounds of total, mean, variance proved; refuted: five equal laps of 111 us give a negative variance, a mean above the maximum, and printing converts NaN to long (undefined behaviour)")
c("C130","partial","Verif.Timing.Conc","C130_race_negation C130_negation C130_no_race_partial C130_atomic_partial C130_statistics_partial C130_order C130_in_range_partial C130_no_deadlock C130_steps C130_finish","refuted: the getters, getTag (also used for exception messages) and Timer(handle) read the registry without the mutex and race with stop() and registrations; proved for all histories of the calls that take the mutex (timers made by tag, start, stop, destruction, getHandle, reset); absence of deadlock, order of the record and step bounds proved for all calls")
c("C131","proved","Verif.Python.Tree","C131_read_only C131_effects","")
c("C132","partial","Verif.Python.Tree","C132_const_getChild C132_no_getOrCreateBool C132_negation C132_views_partial","refuted: getChild of a ConstPropertyTree raises ArgumentError always (the function registered is PropertyTree::getChild), and getOrCreateBool is misspelled; proved: views made with the constructors, and with getChild on objects that can write")
c("C133","proved","Verif.Python.Tree","C133_write_read C133_default_create C133_refused C133_accepted","")
c("C134","partial","Verif.Python","C134_report C134_negation C134_one_short C134_steps C134_overrun_negation C134_remaining_partial C134_reset","refuted: the documented loop ends with n-1 / n; after more steps than announced a remaining time up to 59m 59s is shown; proved: exact counts, estimates and remaining time otherwise (exact arithmetic instead of floats)")
c("C135","partial","Verif.Common","C135_format C135_complete_too_early C135_hundred_too_early C135_negation C135_shown_partial C135_monotone","refuted: formatting of std::cout is changed for good, Complete! too early above 2^53, 100.00% for 99999 of 100000; proved in doubles for all counts up to 2^53")
c("C136","partial","Verif.Logging.Stamp","C136_exact_partial C136_near C136_monotone C136_one_late C136_negation C136_text_order C136_text_strict_partial C136_text_order_2001","refuted: from 2^33 seconds (2242) stamps are off by a microsecond, and texts sort wrongly across 10^9 seconds (2001); proved: exact before 2^33 s, within 2 us always, monotone always, texts sort by time from 10^9 s on")
c("C137","partial","Verif.Archive.Mlab","C137_fields_partial C137_complete_partial C137_negation","refuted: of a matrix and a string of the same name Matlab gets the string only; proved: exact contents of the struct for every reachable archive and filter")
c("C138","partial","Verif.Archive.Mlab","C138_to_cpp_partial C138_roundtrip C138_two_rows C138_not_ascii C138_negation C138_errors C138_three_dims","refuted: character matrices with several rows and non-ASCII characters are saved without error and make the file unreadable; 3-d arrays leave half a block; proved for storable structs, with the round trip and the content after errors")
c("C139","partial","Verif.Archive.Mlab","C139_matlab C139_cpp_partial C139_append_to_cpp C139_negation","Matlab finds the last value for every history; refuted for C++: a name that changes its kind is found twice; proved: last matrix and last string")
c("C140","partial","Verif.Archive.Mlab","C140_matlab_partial C140_cpp_file_partial C140_negation","refuted: a file cut off within a string is loaded silently with the beginning of the string; proved: everything else is exact, at every cut-off point, for files of both programs")
c("C141","proved","Verif.Timing.Table","C141_print C141_sorted","")
c("C142","proved","Verif.Python.Plot","C142_show","")
c("C143","proved","Verif.Python.Frame","C143_frame","")
c("C144","proved","Verif.Archive.Lsma","C144_lists C144_failure","")
c("C145","partial","Verif.Timing.Corrector","C145_partial C145_switching_partial C145_negation C145_negation_increasing","refuted: the corrector to switch to survives reset(); an observation of a restarted remote clock is refused, and after the next switch old observations are used again; proved: like new if the switching form was not used before or is not used later, and, with later remote times, until the next switch")
c("C146","partial","Verif.Timing.Corrector","C146_partial C146_negation","refuted: copies share the corrector they switch to; proved: all programs that copy only objects never used with a switching period, or whose source is destroyed")
c("C147","partial","Verif.Python","C147_product_partial C147_image_partial C147_points_partial C147_negation","refuted: an uncertain left operand times an uncertain one seen as its base class silently lacks the latter's covariance; proved: exactly when the result is right, means always")
c("C148","partial","Verif.Kinematics","C148_partial C148_onto C148_unbounded C148_covariances C148_negation","refuted for angles below 2^-13, where the quaternion is too long by less than double precision; proved: everything else exactly, and bounds for those angles")
c("C149","partial","Verif.Kinematics","C149_partial C149_both_partial C149_negation","refuted: Eigen draws from std::rand, which seed does not touch; proved: angles, distances and everything without Eigen are reproducible, and everything after std::srand and seed")
c("C150","proved","Verif.Kinematics","C150_exponential C150_rotation_vector C150_quaternion C150_elementary C150_group C150_quaternion_group C150_inverse","over the reals")
c("C151","proved","Verif.Random.Conc","C151_own_outputs C151_objects C151_distinct C151_progress","interleavings access by access, sequentially consistent (the lock orders all accesses)")
c("C152","partial","Verif.Random.Conc","C152_one_at_a_time_partial C152_negation","refuted: no lock, two threads can be given the same number (a data race); proved: where the calls do not overlap, every call gets its own output")
c("C153","partial","Verif.Kinematics","C153_values_partial C153_right_partial C153_exactly_partial C153_negation","refuted: all inherited functions but normalize keep the covariance; proved: the values after every history, the right covariance of normalize and assignment, and exactly when the kept covariance is right")
c("C154","partial","Verif.Kinematics","C154_values_partial C154_covariance_partial C154_oplus_partial C154_negation","refuted: set, setIdentity and oplus keep the covariance; proved: the values and the covariance after every history, and what UOplus becomes")
c("C155","partial","Verif.Common.Ptime","C155_locals_partial C155_seconds32_partial C155_nanoseconds_partial C155_negation","refuted for every argument: the function has no return statement; proved: what the value it computes and forgets would be worth")
c("C156","partial","Verif.Python.Uncertain","C156_partial C156_values_partial C156_missing_partial C156_arrays_partial C156_negation","refuted: a scalar or a matrix on the left of an uncertain vector is an error, and of an array makes an array of scalars without covariances; proved: everything else agrees")
c("C157","partial","Verif.PTree.InfoFile","C157_read_written_partial C157_save_load_partial C157_include C157_include_children C157_negation","refuted: a key that begins with # is read as a directive (#include can pull in another file), a quoted key before a value that begins with an escape sequence makes the file unreadable, the value of the root is not written; proved: exactly the other trees come back; C94_reader ties the reader used for C94 to the full reader")
c("C158","partial","Verif.PTree.XmlFile","C158_document_partial C158_tree_partial C158_save_load_partial C158_root_datum C158_blank_lost C158_negation","refuted: a tree whose root has a value gives a file that cannot be read, values of white space are lost, in human readable mode runs of white space become one blank, keys that are no XML names give unreadable files; proved: every document of elements, attributes, texts and comments within these limits comes back for all settings of the flags, also written with one setting and read with another")
c("C159","partial","Verif.PTree.IniFile","C159_iff_partial C159_reload_partial C159_saved_partial C159_order_partial C159_save_load_partial C159_comment_lost C159_negation","refuted: entries behind a section move in front of it, white space around keys and values and entries whose key begins with # or ; are lost silently, an = in a key moves to the value; proved: exactly the canonical trees come back, everything that was loaded comes back after saving, exactly when saving throws")
c("C160","partial","Verif.PTree.JsonFile","C160_saved_partial C160_exact_partial C160_reload_partial C160_save_load_partial C160_negation","refuted: a key or value that is not UTF-8 (e.g. Latin-1) is saved without complaint but the file is refused by load; proved: exactly when saving throws, exactly which saved trees come back (those of UTF-8 texts), everything loaded from an object or array comes back after saving")
c("C161","partial","Verif.KinematicsDouble","C161_single C161_roundtrip C161_stable_partial C161_negation","refuted for repeated conversions: the quaternion read from a matrix is not normalized and for rotations whose quaternion has no component with a square over 1/2 the error of its length grows by a constant factor per conversion until the rotation is lost (shown, for every rounding, from a matrix precise to 2^-26 within 120 conversions); proved: one conversion, one round trip of every built transformation, and repeated conversions (up to 2^25) when one component has a square of at least 3/5")
c("C162","partial","Verif.KinematicsDouble","C162_normalized C162_assertion C162_accuracy C162_accuracy_long C162_translation C162_rotation_vector_partial C162_negation","refuted: for rotation vectors just shorter than 2^-13 axisAngle2quat is off by more than 2^-46, whatever the rounding and the C library, because the series it uses has the wrong sign; everything else is proved, with the bound 2^-43 for such vectors")
c("C163","proved","Verif.PTree.JsonFile","C163_read C163_unique C163_load","the grammar (PTree/JsonGrammar.lean) is written after the RFC, independently of the reader; where boost's reader is laxer (byte order mark, raw control characters, bytes of characters only counted) the grammar says so")
c("C164","partial","Verif.PTree.XmlFile","C164_read_partial C164_unique C164_load_partial C164_negation","refuted: the reader also accepts files that are no XML documents (several root elements, attributes without white space between them, a lone &, and wrong closing tags where boost does not compare them); proved: every document of the grammar (PTree/XmlGrammar.lean, written after the recommendation) is read as the tree it stands for, for all settings")
c("C165","proved","Verif.PTree.IniFile","C165_read C165_unique C165_load","the grammar (PTree/IniGrammar.lean) says line by line what a file means, independently of the reader")
c("C166","proved","Verif.PTree.InfoFile","C166_read C166_unique C166_load","the grammar (PTree/InfoGrammar.lean) is context-free over tokens and independent of the reader's stack machine; where boost is lax (a last continued string without its end, text behind a zero character, included children behind the current one) the grammar says so")
c("C167","partial","Verif.PTree.Codecs","C167_string C167_int C167_bool C167_double_partial C167_nonfinite C167_negation","refuted for infinities and NaNs, which are written but cannot be read; proved for every string, int, bool and finite double, for any nearest rounding in both directions")
c("C168","proved","Verif.PTree.Codecs","C168_getInt C168_getBool C168_getDouble C168_unique C168_bool_negation","boost's translators in the classic locale are environment, modelled in PTree/Codecs.lean; C168_bool_negation shows the quirk of the truth values: 2true is true")
c("C169","proved","Verif.KinematicsDouble","C169_reads C169_errors C169_reload","the texts, boost's conversions (C167, C168) and the arithmetic in doubles; the library normalises twice, once in the conversion and once in the constructor")
c("C170","proved","Verif.PTree.Session","C170_session C170_info C170_xml C170_json C170_ini","end to end: conversions (C167), trees (C26) and file formats (C157-C160) composed")
c("C171","partial","Verif.Timing.Machine","C171_negation C171_double_partial C171_int64_partial C171_throws","refuted: offset + slope * r differs from getLocalTime(r) by more than a nanosecond for times since 1970; proved: error bounds for doubles and int64")
c("C172","partial","Verif.CovDouble","C172_negation C172_product C172_semidefinite_partial C172_move C172_inverse C172_rotate C172_movePoint C172_image C172_point","refuted: exact symmetry and semidefiniteness; proved: error bounds for every order of summation")
c("C173","partial","Verif.KinematicsDouble","C173_full_turn C173_negation C173_log C173_log_long C173_short C173_exp_log C173_log_exp","refuted at the quaternion -1; proved everywhere else but within 2^-20 of it")
c("C174","partial","Verif.KinematicsDouble","C174_second_negation C174_between_negation C174_unit C174_ends C174_rotation C174_translation C174_interpolated C174_order C174_outside_partial C174_fraction_partial","refuted for time spans under 1e-14 and for the exact bounds of the coordinates; proved for spans of at least 2^-46, and up to rounding")
c("C175","partial","Verif.EulerDouble","C175_negation C175_matrix C175_angles_partial C175_round_trip C175_pose_partial C175_range_partial","refuted at the gimbal lock; proved away from it")
c("C176","partial","Verif.Format","C176_fixedFloat C176_fixed_unique C176_fixed_mono C176_padded C176_padded_negation C176_padded_call_partial C176_readback_negation C176_readback_partial C176_scientific C176_scientific_readback C176_scientific_width_negation C176_scientific_width_partial C176_paddedToString C176_columns C176_stream_negation C176_stream_partial C176_tuple C176_tuple_inj C176_ts_negation C176_ts_partial","five of the claims refuted with what remains true proved; the rest proved")
c("C177","partial","Verif.RotVecDouble","C177_matrix C177_axis_angle C177_params_partial C177_round_trip C177_pose_partial C177_finite C177_negation","that short rotation vectors come back is refuted; the bound with the sine of the angle is proved")
c("C178","partial","Verif.ErDouble","C178_matrix C178_smatrix C178_params_partial C178_round_trip C178_pose_partial C178_params_negation C178_round_trip_negation C178_matrix_negation","that the parameters of a computed rotation are always numbers is refuted (no clamping); the bound with the sine of the angle is proved")
c("C179","partial","Verif.HomDouble","C179_round_trip C179_columns C179_infinity C179_arithmetic C179_euclidean C179_plus C179_minus C179_jacobian C179_normalize C179_direction C179_sum_negation C179_conversion_negation","that sums of moderate points are finite, and that every point in the unit cube is converted, are refuted (the weights multiply; the reciprocal of a tiny weight overflows); the rest is proved")
c("C180","partial","Verif.DiffDouble","C180_points C180_error C180_affine C180_identity_partial C180_zero C180_identity_negation C180_step_negation","that the Jacobian of the identity is exactly the identity, and that every positive step factor moves the point, are refuted; the bound with 1/(eps 2^53) is proved")
c("C181","partial","Verif.AngleDouble","C181_angleMod C181_inside C181_half C181_nonfinite C181_degrees C181_round_trip C181_idempotent_negation C181_range_negation C181_half_turn_negation","idempotence, the exact range [-pi, pi] and the exactness of half a turn are refuted; the bounds with the rounding errors are proved")
c("C182","proved","Verif.RateDouble","C182_smatrix C182_velocity C182_gimbal","")
c("C183","proved","Verif.ErRate","C183_velocity C183_agree","")
c("C184","proved","Verif.RvRate","C184_smatrix C184_velocity","")
c("C185","partial","Verif.RvInv","C185_short C185_zero C185_negation C185_accurate_partial","false in general: below 2^-28 no entry of the returned matrix is finite; proved for the zero vector and for lengths between 2^-20 and 6, with the error growing as the length shrinks; missing: lengths from 2^-28 to 2^-20")
c("C186","proved","Verif.MatDouble","C186_inverse C186_point C186_inverse_point","")
c("C187","proved","Verif.ExpDiff","C187_expDiffMat C187_zero C187_jacobian","")
c("C188","proved","Verif.LogDiff","C188_logDiffMat C188_inverse C188_zero","")
c("C189","partial","Verif.LerpDouble","C189_size C189_ends C189_nan C189_between C189_range_negation","the interpolated point may leave the range of its end points by a rounding (refuted); the rest is proved")
c("C190","partial","Verif.LogJac","C190_negation C190_identity C190_left_partial","finiteness for every unit quaternion is refuted by the identity; the accuracy of the first three columns is proved, that of the last one is missing")
#MORE
json.dump({"claims": C}, open("MANIFEST.json", "w"), indent=1)
