{
 "claims": [
  {
   "property": "C01",
   "status": "proved",
   "theorems": [
    "Parla.Props.C01_rf1_basis",
    "Parla.Props.C01_rf1_rejects",
    "Parla.Props.C01_rf1_procedural"
   ],
   "note": ""
  },
  {
   "property": "C02",
   "status": "proved",
   "theorems": [
    "Parla.Props.C02_rs1_range",
    "Parla.Props.C02_rs1_range_le",
    "Parla.Props.C02_rs1_range_parla"
   ],
   "note": ""
  },
  {
   "property": "C03",
   "status": "proved",
   "theorems": [
    "Parla.Props.C03_rs1_schedule",
    "Parla.Props.C03_schedule_counts",
    "Parla.Props.C03_schedule_last",
    "Parla.Props.C03_rs1_rejects",
    "Parla.Props.C03_rs1_function_rejects",
    "Parla.Props.C03_rs1_function"
   ],
   "note": ""
  },
  {
   "property": "C04",
   "status": "proved",
   "theorems": [
    "Parla.Props.C04_qb1",
    "Parla.Props.C04_qb1_rejects"
   ],
   "note": ""
  },
  {
   "property": "C05",
   "status": "proved",
   "theorems": [
    "Parla.Props.C05_rf1_shape",
    "Parla.Props.C05_qb2_exit",
    "Parla.Props.C05_qb2_no_tol",
    "Parla.Props.C05_qb2_blocks",
    "Parla.Props.C05_qb2_terminates",
    "Parla.Props.C05_qb2_never_diverges"
   ],
   "note": ""
  },
  {
   "property": "C06",
   "status": "proved",
   "theorems": [
    "Parla.Props.C06_qb2_full_blocks",
    "Parla.Props.C06_qb2_orthonormal",
    "Parla.Props.C06_qb2_orthonormal_rank",
    "Parla.Props.C06_qb2_unconditional",
    "Parla.Props.C06_rf1_fullBlock",
    "Parla.Props.C06_qb2_not_orthonormal"
   ],
   "note": "The unconditional documentation claim is refuted (C06_qb2_not_orthonormal); the exact condition is proved."
  },
  {
   "property": "C07",
   "status": "proved",
   "theorems": [
    "Parla.Props.C07_qb2_rank_drop",
    "Parla.Props.C07_qb2_exact",
    "Parla.Props.C07_qb2_tolerance_met",
    "Parla.Props.C07_rf1_captures"
   ],
   "note": ""
  },
  {
   "property": "C08",
   "status": "proved",
   "theorems": [
    "Parla.Props.C08_qb2_overwrite",
    "Parla.Props.C08_qb2_same_result"
   ],
   "note": ""
  },
  {
   "property": "C09",
   "status": "proved",
   "theorems": [
    "Parla.Props.C09_qb2_rejects",
    "Parla.Props.C09_qb2_clamps",
    "Parla.Props.C09_qb2_silent"
   ],
   "note": ""
  },
  {
   "property": "C10",
   "status": "proved",
   "theorems": [
    "Parla.Props.C10_qb3_correct",
    "Parla.Props.C10_qb3_returns",
    "Parla.Props.C10_qb3_raises_only_if_dependent",
    "Parla.Props.C10_qb3_raises"
   ],
   "note": ""
  },
  {
   "property": "C11",
   "status": "proved",
   "theorems": [
    "Parla.Props.C11_qb3_rejects",
    "Parla.Props.C11_qb3_columns",
    "Parla.Props.C11_qb3_no_tol"
   ],
   "note": ""
  },
  {
   "property": "C12",
   "status": "proved",
   "theorems": [
    "Parla.Props.C12_svd1_valid"
   ],
   "note": ""
  },
  {
   "property": "C13",
   "status": "proved",
   "theorems": [
    "Parla.Props.C13_svd1_no_truncation",
    "Parla.Props.C13_svd1_tolerance",
    "Parla.Props.C13_svd1_driver_tolerance",
    "Parla.Props.C13_svd1_tolerance_false"
   ],
   "note": "Documented bound proved up to an absolute term 10*eps*min(m,n); C13_svd1_tolerance_false shows the term cannot be dropped."
  },
  {
   "property": "C14",
   "status": "proved",
   "theorems": [
    "Parla.Props.C14_evd1_valid"
   ],
   "note": ""
  },
  {
   "property": "C15",
   "status": "proved",
   "theorems": [
    "Parla.Props.C15_evd1_tolerance",
    "Parla.Props.C15_evd1_driver_tolerance",
    "Parla.Props.C15_evd1_tolerance_false"
   ],
   "note": "Documented bound proved up to an absolute term 10*eps*sqrt(n); C15_evd1_tolerance_false shows the term cannot be dropped."
  },
  {
   "property": "C16",
   "status": "proved",
   "theorems": [
    "Parla.Props.C16_evd2_psd",
    "Parla.Props.C16_evd2_returns"
   ],
   "note": ""
  },
  {
   "property": "C17",
   "status": "proved",
   "theorems": [
    "Parla.Props.C17_evd2_rank",
    "Parla.Props.C17_evd2_rank_false"
   ],
   "note": "Exact count proved; it contradicts the documented min(k, rank A) (C17_evd2_rank_false)."
  },
  {
   "property": "C18",
   "status": "proved",
   "theorems": [
    "Parla.Props.C18_qrcp_column",
    "Parla.Props.C18_qrcp_row",
    "Parla.Props.C18_qrcp_outcome"
   ],
   "note": ""
  },
  {
   "property": "C19",
   "status": "proved",
   "theorems": [
    "Parla.Props.C19_osid1_column",
    "Parla.Props.C19_osid1_row",
    "Parla.Props.C19_osid1_column_exact",
    "Parla.Props.C19_osid1_row_exact"
   ],
   "note": ""
  },
  {
   "property": "C20",
   "status": "proved",
   "theorems": [
    "Parla.Props.C20_osid2_column",
    "Parla.Props.C20_osid2_row",
    "Parla.Props.C20_osid2_returns"
   ],
   "note": ""
  },
  {
   "property": "C21",
   "status": "proved",
   "theorems": [
    "Parla.Props.C21_tsid1_tall",
    "Parla.Props.C21_tsid1_wide",
    "Parla.Props.C21_tsid1"
   ],
   "note": ""
  },
  {
   "property": "C22",
   "status": "proved",
   "theorems": [
    "Parla.Props.C22_cur1_tall",
    "Parla.Props.C22_cur1_wide",
    "Parla.Props.C22_cur1_exact_tall",
    "Parla.Props.C22_cur1_exact_wide"
   ],
   "note": ""
  },
  {
   "property": "C23",
   "status": "proved",
   "theorems": [
    "Parla.Props.C23_rocs1_eq_osid1",
    "Parla.Props.C23_rocs1_eq_osid2",
    "Parla.Props.C23_rocs1_indices",
    "Parla.Props.C23_bad_axis"
   ],
   "note": ""
  },
  {
   "property": "C24",
   "status": "proved",
   "theorems": [
    "Parla.Props.C24_rf1_passes",
    "Parla.Props.C24_qb_passes",
    "Parla.Props.C24_osid1_passes",
    "Parla.Props.C24_rocs1_passes",
    "Parla.Props.C24_osid2_passes",
    "Parla.Props.C24_tsid1_passes",
    "Parla.Props.C24_evd2_passes",
    "Parla.Props.C24_cur1_passes",
    "Parla.Props.C24_cur1_rejects_one",
    "Parla.Props.C24_qb_b_passes",
    "Parla.Props.C24_svd1_passes",
    "Parla.Props.C24_evd1_passes",
    "Parla.Props.C24_qb_b_pe_passes"
   ],
   "note": "Exact counts proved; cur1 deviates from its documentation."
  },
  {
   "property": "C25",
   "status": "proved",
   "theorems": [
    "Parla.Props.C25_lift",
    "Parla.Props.C25_precond_general",
    "Parla.Props.C25_precond_upper_tri",
    "Parla.Props.C25_adjoint",
    "Parla.Props.C25_history",
    "Parla.Props.C25_history_upper_tri",
    "Parla.Props.C25_multiple_rhs"
   ],
   "note": ""
  },
  {
   "property": "C26",
   "status": "proved",
   "theorems": [
    "Parla.Props.C26_svd_right_precond",
    "Parla.Props.C26_numerical_rank",
    "Parla.Props.C26_empty"
   ],
   "note": ""
  },
  {
   "property": "C27",
   "status": "proved",
   "theorems": [
    "Parla.Props.C27_pcg_log",
    "Parla.Props.C27_pcg_start",
    "Parla.Props.C27_pcg_limit_irrelevant",
    "Parla.Props.C27_pcg_negative",
    "Parla.Props.C27_pcg_errors"
   ],
   "note": ""
  },
  {
   "property": "C28",
   "status": "proved",
   "theorems": [
    "Parla.Props.C28_pcg_converges",
    "Parla.Props.C28_pcg_exact",
    "Parla.Props.C28_pcg_monotone"
   ],
   "note": ""
  },
  {
   "property": "C29",
   "status": "proved",
   "theorems": [
    "Parla.Props.C29_pcss1_log",
    "Parla.Props.C29_pcss1_solves_iff",
    "Parla.Props.C29_pcss1_converges",
    "Parla.Props.C29_pcss1_solves",
    "Parla.Props.C29_pcss1_rejects",
    "Parla.Props.C29_pcss1_R_overwritten"
   ],
   "note": ""
  },
  {
   "property": "C30",
   "status": "proved",
   "theorems": [
    "Parla.Props.C30_lsqr_arnorms_damped",
    "Parla.Props.C30_lsqr_arnorms",
    "Parla.Props.C30_lsqr_start",
    "Parla.Props.C30_lsqr_total"
   ],
   "note": ""
  },
  {
   "property": "C31",
   "status": "proved",
   "theorems": [
    "Parla.Props.C31_lsqr_r2norm_damped",
    "Parla.Props.C31_lsqr_rnorm",
    "Parla.Props.C31_lsqr_monotone",
    "Parla.Props.C31_lsqr_never_worse"
   ],
   "note": ""
  },
  {
   "property": "C32",
   "status": "proved",
   "theorems": [
    "Parla.Props.C32_lsqr_codes",
    "Parla.Props.C32_lsqr_first_stop",
    "Parla.Props.C32_lsqr_rank",
    "Parla.Props.C32_lsqr_exact",
    "Parla.Props.C32_lsqr_wellcond",
    "Parla.Props.C32_lsqr_zero_rhs",
    "Parla.Props.C32_lsqr_zero_rhs_false"
   ],
   "note": ""
  },
  {
   "property": "C33",
   "status": "proved",
   "theorems": [
    "Parla.Props.C33_lsqr_row_space",
    "Parla.Props.C33_lsqr_min_norm"
   ],
   "note": ""
  },
  {
   "property": "C34",
   "status": "proved",
   "theorems": [
    "Parla.Props.C34_pcss2_over",
    "Parla.Props.C34_pcss2_never_worse",
    "Parla.Props.C34_pcss2_over_solves",
    "Parla.Props.C34_pcss2_over_exact",
    "Parla.Props.C34_pcss2_under",
    "Parla.Props.C34_pcss2_under_log",
    "Parla.Props.C34_pcss2_under_solves",
    "Parla.Props.C34_pcss2_under_exact",
    "Parla.Props.C34_pcss2_rejects",
    "Parla.Props.C34_pcss2_total",
    "Parla.Props.C34_pcss2_singular"
   ],
   "note": ""
  },
  {
   "property": "C35",
   "status": "proved",
   "theorems": [
    "Parla.Props.C35_int_truncates",
    "Parla.Props.C35_dim_checks"
   ],
   "note": ""
  },
  {
   "property": "C36",
   "status": "proved",
   "theorems": [
    "Parla.Props.C36_sso1",
    "Parla.Props.C36_sso1_total",
    "Parla.Props.C36_sso1_isometry",
    "Parla.Props.C36_sso1_embedding"
   ],
   "note": ""
  },
  {
   "property": "C37",
   "status": "proved",
   "theorems": [
    "Parla.Props.C37_spo_preconditioner",
    "Parla.Props.C37_spo_singular",
    "Parla.Props.C37_spo_unknown_mode",
    "Parla.Props.C37_spo_never_worse",
    "Parla.Props.C37_spo_vs_start",
    "Parla.Props.C37_spo_start"
   ],
   "note": ""
  },
  {
   "property": "C38",
   "status": "proved",
   "theorems": [
    "Parla.Props.C38_spo_log",
    "Parla.Props.C38_spo_solves",
    "Parla.Props.C38_spo_exact"
   ],
   "note": ""
  },
  {
   "property": "C39",
   "status": "proved",
   "theorems": [
    "Parla.Props.C39_spu1_range",
    "Parla.Props.C39_spu1_min_norm",
    "Parla.Props.C39_spu1_zero",
    "Parla.Props.C39_spu1_nonzero",
    "Parla.Props.C39_spu1_exact"
   ],
   "note": ""
  },
  {
   "property": "C40",
   "status": "proved",
   "theorems": [
    "Parla.Props.C40_sps2_rhs",
    "Parla.Props.C40_sps2_y",
    "Parla.Props.C40_sps2_solves",
    "Parla.Props.C40_sps2_never_worse",
    "Parla.Props.C40_sps2_exact",
    "Parla.Props.C40_sps2_start"
   ],
   "note": ""
  },
  {
   "property": "C41",
   "status": "proved",
   "theorems": [
    "Parla.Props.C41_sps1_right_form",
    "Parla.Props.C41_sps1_left_form",
    "Parla.Props.C41_sps1_bad_strategy",
    "Parla.Props.C41_sps1_result",
    "Parla.Props.C41_sps1_converges",
    "Parla.Props.C41_sps1_start"
   ],
   "note": ""
  },
  {
   "property": "C42",
   "status": "proved",
   "theorems": [
    "Parla.Props.C42_wrap_up",
    "Parla.Props.C42_wrap_up_mono",
    "Parla.Props.C42_wrap_up_short"
   ],
   "note": ""
  },
  {
   "property": "C43",
   "status": "proved",
   "theorems": [
    "Parla.Props.C43_spo_logging",
    "Parla.Props.C43_spo_orthogonal",
    "Parla.Props.C43_sps2_zero"
   ],
   "note": ""
  },
  {
   "property": "C44",
   "status": "proved",
   "theorems": [
    "Parla.Props.C44_sjlt_structure",
    "Parla.Props.C44_sjlt_warns",
    "Parla.Props.C44_sjlt_total",
    "Parla.Props.C44_sjlt_replacement"
   ],
   "note": ""
  },
  {
   "property": "C45",
   "status": "proved",
   "theorems": [
    "Parla.Props.C45_sjlt_expectation",
    "Parla.Props.C45_sjlt_drawn"
   ],
   "note": ""
  },
  {
   "property": "C46",
   "status": "proved",
   "theorems": [
    "Parla.Props.C46_sparse_sign_retry",
    "Parla.Props.C46_sparse_sign_structure",
    "Parla.Props.C46_sparse_sign_nonpos",
    "Parla.Props.C46_sparse_sign_dense"
   ],
   "note": ""
  },
  {
   "property": "C47",
   "status": "proved",
   "theorems": [
    "Parla.Props.C47_srct_operator",
    "Parla.Props.C47_srct_total",
    "Parla.Props.C47_apply_srct_adjoint",
    "Parla.Props.C47_apply_srct_inverse",
    "Parla.Props.C47_srct_expectation",
    "Parla.Props.C47_srct_entries",
    "Parla.Props.C47_srct_entries_tall",
    "Parla.Props.C47_srct_uncorrelated"
   ],
   "note": ""
  },
  {
   "property": "C48",
   "status": "proved",
   "theorems": [
    "Parla.Props.C48_sampling_wide_given",
    "Parla.Props.C48_sampling_errors",
    "Parla.Props.C48_sampling_wide_drawn",
    "Parla.Props.C48_sampling_tall_given",
    "Parla.Props.C48_sampling_tall_drawn",
    "Parla.Props.C48_sampling_tall_ignores_indices",
    "Parla.Props.C48_sampling_repeated"
   ],
   "note": ""
  },
  {
   "property": "C49",
   "status": "proved",
   "theorems": [
    "Parla.Props.C49_orthonormal_tall",
    "Parla.Props.C49_orthonormal_wide",
    "Parla.Props.C49_orthonormal_empty",
    "Parla.Props.C49_orthonormal_equivariant"
   ],
   "note": ""
  },
  {
   "property": "C50",
   "status": "proved",
   "theorems": [
    "Parla.Props.C50_generator_result",
    "Parla.Props.C50_base_raises",
    "Parla.Props.C50_parameters",
    "Parla.Props.C50_sparse_sign_none"
   ],
   "note": ""
  },
  {
   "property": "C51",
   "status": "proved",
   "theorems": [
    "Parla.Props.C51_loglinear_fit",
    "Parla.Props.C51_loglog_fit",
    "Parla.Props.C51_exact"
   ],
   "note": ""
  },
  {
   "property": "C52",
   "status": "proved",
   "theorems": [
    "Parla.Props.C52_lupt",
    "Parla.Props.C52_lup",
    "Parla.Props.C52_lu_stabilize",
    "Parla.Props.C52_orth",
    "Parla.Props.C52_apply_pinv"
   ],
   "note": ""
  },
  {
   "property": "C53",
   "status": "proved",
   "theorems": [
    "Parla.Props.C53_symOrtho"
   ],
   "note": ""
  },
  {
   "property": "C54",
   "status": "proved",
   "theorems": [
    "Parla.Props.C54_lsqr_acond",
    "Parla.Props.C54_lsqr_estimates",
    "Parla.Props.C54_lsqr_tolerances"
   ],
   "note": ""
  },
  {
   "property": "C55",
   "status": "proved",
   "theorems": [
    "Parla.Props.C55_gaussian_result",
    "Parla.Props.C55_gaussian_expectation"
   ],
   "note": ""
  },
  {
   "property": "C56",
   "status": "proved",
   "theorems": [
    "Parla.Props.C56_sso1",
    "Parla.Props.C56_sso1_default"
   ],
   "note": ""
  },
  {
   "property": "C57",
   "status": "proved",
   "theorems": [
    "Parla.Props.C57_spo1_outcomes",
    "Parla.Props.C57_spo3_outcomes",
    "Parla.Props.C57_spo3_default",
    "Parla.Props.C57_spu1_outcomes"
   ],
   "note": ""
  },
  {
   "property": "C58",
   "status": "proved",
   "theorems": [
    "Parla.Props.C58_sps_pcg_result",
    "Parla.Props.C58_sps_pcg_converges",
    "Parla.Props.C58_sps_default",
    "Parla.Props.C58_sps_rejects",
    "Parla.Props.C58_sps_lsqr_result"
   ],
   "note": ""
  },
  {
   "property": "C59",
   "status": "proved",
   "theorems": [
    "Parla.Props.C59_rs1",
    "Parla.Props.C59_rf1",
    "Parla.Props.C59_qb",
    "Parla.Props.C59_qb_b_pe",
    "Parla.Props.C59_evd2",
    "Parla.Props.C59_orthonormal",
    "Parla.Props.C59_osid1",
    "Parla.Props.C59_tsid1",
    "Parla.Props.C59_cur1"
   ],
   "note": ""
  },
  {
   "property": "C60",
   "status": "proved",
   "theorems": [
    "Parla.Props.C60_sso1_consistent",
    "Parla.Props.C60_spo_consistent",
    "Parla.Props.C60_spo_gaussian",
    "Parla.Props.C60_gaussian_consistent"
   ],
   "note": ""
  },
  {
   "property": "C61",
   "status": "proved",
   "theorems": [
    "Parla.Props.C61_rf1_lower",
    "Parla.Props.C61_rf1_error",
    "Parla.Props.C61_qb_error",
    "Parla.Props.C61_rf1_rate"
   ],
   "note": ""
  },
  {
   "property": "C62",
   "status": "proved",
   "theorems": [
    "Parla.Props.C62_svd1_near_optimal",
    "Parla.Props.C62_evd1_near_optimal"
   ],
   "note": ""
  },
  {
   "property": "C63",
   "status": "proved",
   "theorems": [
    "Parla.Props.C63_qb_b",
    "Parla.Props.C63_svd1",
    "Parla.Props.C63_svd1_tolerance",
    "Parla.Props.C63_evd1"
   ],
   "note": ""
  },
  {
   "property": "C64",
   "status": "proved",
   "theorems": [
    "Parla.Props.C64_sso1",
    "Parla.Props.C64_sso1_probability",
    "Parla.Props.C64_spo"
   ],
   "note": ""
  },
  {
   "property": "C65",
   "status": "proved",
   "theorems": [
    "Parla.Props.C65_rf1",
    "Parla.Props.C65_qb",
    "Parla.Props.C65_qb_b",
    "Parla.Props.C65_qb_b_early",
    "Parla.Props.C65_qb_b_pe",
    "Parla.Props.C65_svd1",
    "Parla.Props.C65_rf1_probability",
    "Parla.Props.C65_rf1_oversampling",
    "Parla.Props.C65_evd1"
   ],
   "note": ""
  },
  {
   "property": "C66",
   "status": "proved",
   "theorems": [
    "Parla.Props.C66_pcg_optimal",
    "Parla.Props.C66_pcg_rate",
    "Parla.Props.C66_pcg_apriori",
    "Parla.Props.C66_pcss1_rate",
    "Parla.Props.C66_pcss1_low_rank_exact"
   ],
   "note": ""
  },
  {
   "property": "C67",
   "status": "proved",
   "theorems": [
    "Parla.Props.C67_lsqr_optimal",
    "Parla.Props.C67_lsqr_rate",
    "Parla.Props.C67_lsqr_rate_damped",
    "Parla.Props.C67_lsqr_apriori",
    "Parla.Props.C67_pcss2_rate",
    "Parla.Props.C67_spo_rate",
    "Parla.Props.C67_spo_apriori",
    "Parla.Props.C67_sps1_rate",
    "Parla.Props.C67_spu1_rate"
   ],
   "note": ""
  },
  {
   "property": "C68",
   "status": "proved",
   "theorems": [
    "Parla.Props.C68_gaussian_subspace",
    "Parla.Props.C68_gaussian_embeds",
    "Parla.Props.C68_rows",
    "Parla.Props.C68_spo",
    "Parla.Props.C68_sso1",
    "Parla.Props.C68_spo_relative",
    "Parla.Props.C68_spu1"
   ],
   "note": ""
  },
  {
   "property": "C69",
   "status": "proved",
   "theorems": [
    "Parla.Props.C69_calc_var_adds",
    "Parla.Props.C69_lsqr_var",
    "Parla.Props.C69_lsqr_var_monotone"
   ],
   "note": ""
  },
  {
   "property": "C70",
   "status": "proved",
   "theorems": [
    "Parla.Props.C70_spo",
    "Parla.Props.C70_spo_relative",
    "Parla.Props.C70_sso1",
    "Parla.Props.C70_spu1",
    "Parla.Props.C70_rows",
    "Parla.Props.C70_sjlt_subspace",
    "Parla.Props.C70_sjlt_embeds"
   ],
   "note": ""
  },
  {
   "property": "C71",
   "status": "proved",
   "theorems": [
    "Parla.Props.C71_low_rank",
    "Parla.Props.C71_low_rank_int",
    "Parla.Props.C71_low_rank_empty",
    "Parla.Props.C71_low_rank_too_many",
    "Parla.Props.C71_low_rank_ae",
    "Parla.Props.C71_exponent",
    "Parla.Props.C71_s_shaped",
    "Parla.Props.C71_simple_mat",
    "Parla.Props.C71_demo_helper",
    "Parla.Props.C71_resample"
   ],
   "note": ""
  },
  {
   "property": "C72",
   "status": "proved",
   "theorems": [
    "Parla.Props.C72_srct_subspace",
    "Parla.Props.C72_srct_embeds",
    "Parla.Props.C72_sso1",
    "Parla.Props.C72_spo",
    "Parla.Props.C72_spu1"
   ],
   "note": ""
  },
  {
   "property": "C73",
   "status": "proved",
   "theorems": [
    "Parla.Props.C73_sps1_start",
    "Parla.Props.C73_sps",
    "Parla.Props.C73_sps1_srct",
    "Parla.Props.C73_sps1_gaussian"
   ],
   "note": ""
  },
  {
   "property": "C74",
   "status": "proved",
   "theorems": [
    "Parla.Props.C74_sps2_rate",
    "Parla.Props.C74_sps2_apriori",
    "Parla.Props.C74_sps2_sjlt",
    "Parla.Props.C74_sps2_srct",
    "Parla.Props.C74_sps2_gaussian"
   ],
   "note": ""
  },
  {
   "property": "C75",
   "status": "proved",
   "theorems": [
    "Parla.Props.C75_evd2_error",
    "Parla.Props.C75_evd2_gaussian",
    "Parla.Props.C75_evd2_expected",
    "Parla.Props.C75_evd2_probability"
   ],
   "note": ""
  },
  {
   "property": "C76",
   "status": "proved",
   "theorems": [
    "Parla.Props.C76_qrcp_column",
    "Parla.Props.C76_qrcp_row",
    "Parla.Props.C76_osid1_column",
    "Parla.Props.C76_osid1_row",
    "Parla.Props.C76_osid2_column",
    "Parla.Props.C76_osid2_row",
    "Parla.Props.C76_cur1_tall",
    "Parla.Props.C76_cur1_wide"
   ],
   "note": ""
  },
  {
   "property": "C77",
   "status": "proved",
   "theorems": [
    "Parla.Props.C77_osid1_column",
    "Parla.Props.C77_osid1_row",
    "Parla.Props.C77_osid2_column",
    "Parla.Props.C77_osid2_row",
    "Parla.Props.C77_tsid1",
    "Parla.Props.C77_cur1",
    "Parla.Props.C77_osid1_column_probability",
    "Parla.Props.C77_osid1_row_probability",
    "Parla.Props.C77_cur1_probability"
   ],
   "note": ""
  },
  {
   "property": "C78",
   "status": "proved",
   "theorems": [
    "Parla.Props.C78_evd2",
    "Parla.Props.C78_rf1",
    "Parla.Props.C78_qb",
    "Parla.Props.C78_qb_b",
    "Parla.Props.C78_qb_b_early",
    "Parla.Props.C78_qb_b_pe",
    "Parla.Props.C78_svd1",
    "Parla.Props.C78_evd1",
    "Parla.Props.C78_osid1_column",
    "Parla.Props.C78_osid1_row",
    "Parla.Props.C78_osid2_column",
    "Parla.Props.C78_osid2_row",
    "Parla.Props.C78_tsid1",
    "Parla.Props.C78_cur1"
   ],
   "note": ""
  },
  {
   "property": "C79",
   "status": "proved",
   "theorems": [
    "Parla.Props.C79_pcg",
    "Parla.Props.C79_pcss1",
    "Parla.Props.C79_sps1",
    "Parla.Props.C79_sps",
    "Parla.Props.C79_spu1",
    "Parla.Props.C79_spu",
    "Parla.Props.C79_spo"
   ],
   "note": ""
  },
  {
   "property": "C80",
   "status": "proved",
   "theorems": [
    "Parla.Props.C80_reproducible",
    "Parla.Props.C80_qb",
    "Parla.Props.C80_svd_evd",
    "Parla.Props.C80_objects",
    "Parla.Props.C80_interpolative",
    "Parla.Props.C80_lstsq",
    "Parla.Props.C80_operators",
    "Parla.Props.C80_stream_qb",
    "Parla.Props.C80_stream_id",
    "Parla.Props.C80_stream_qb_b",
    "Parla.Props.C80_stream_lstsq"
   ],
   "note": ""
  },
  {
   "property": "C81",
   "status": "proved",
   "theorems": [
    "Parla.Props.C81_exact",
    "Parla.Props.C81_qb2",
    "Parla.Props.C81_qb_b",
    "Parla.Props.C81_bound",
    "Parla.Props.C81_qb1",
    "Parla.Props.C81_qb",
    "Parla.Props.C81_orth",
    "Parla.Props.C81_orth_fails",
    "Parla.Props.C81_svd1",
    "Parla.Props.C81_svd1_driver"
   ],
   "note": ""
  },
  {
   "property": "C82",
   "status": "proved",
   "theorems": [
    "Parla.Props.C82_exact",
    "Parla.Props.C82_sso1",
    "Parla.Props.C82_preconditioner",
    "Parla.Props.C82_spo",
    "Parla.Props.C82_spo_total",
    "Parla.Props.C82_spu1"
   ],
   "note": ""
  },
  {
   "property": "C83",
   "status": "proved",
   "theorems": [
    "Parla.C83_pcg",
    "Parla.C83_lsqr",
    "Parla.C83_pcss1",
    "Parla.C83_pcss1_R",
    "Parla.C83_pcss2",
    "Parla.C83_sso1",
    "Parla.C83_spo",
    "Parla.C83_spu1",
    "Parla.C83_sps1",
    "Parla.C83_sps2",
    "Parla.C83_solvers",
    "Parla.C83_qb2"
   ],
   "note": ""
  },
  {
   "property": "C84",
   "status": "proved",
   "theorems": [
    "Parla.Props.C84_sso1",
    "Parla.Props.C84_spo",
    "Parla.Props.C84_spu1",
    "Parla.Props.C84_sparse_sign_subspace",
    "Parla.Props.C84_sparse_sign_embeds",
    "Parla.Props.C84_sparse_sign_mean",
    "Parla.Props.C84_sparse_sign_failure"
   ],
   "note": ""
  },
  {
   "property": "C85",
   "status": "proved",
   "theorems": [
    "Parla.Props.C85_exact",
    "Parla.Props.C85_pcg_honest",
    "Parla.Props.C85_pcss1_honest"
   ],
   "note": ""
  },
  {
   "property": "C86",
   "status": "proved",
   "theorems": [
    "Parla.Props.C86_rs1",
    "Parla.Props.C86_rf1",
    "Parla.Props.C86_qb",
    "Parla.Props.C86_qb_b",
    "Parla.Props.C86_qb_b_pe",
    "Parla.Props.C86_svd1",
    "Parla.Props.C86_evd1",
    "Parla.Props.C86_evd2",
    "Parla.Props.C86_osid1",
    "Parla.Props.C86_osid2",
    "Parla.Props.C86_rocs1",
    "Parla.Props.C86_tsid1",
    "Parla.Props.C86_cur1"
   ],
   "note": ""
  },
  {
   "property": "C87",
   "status": "proved",
   "theorems": [
    "Parla.Props.C87_sso1",
    "Parla.Props.C87_spo",
    "Parla.Props.C87_spo_mode",
    "Parla.Props.C87_spu1",
    "Parla.Props.C87_sps2",
    "Parla.Props.C87_sps1",
    "Parla.Props.C87_pcss2",
    "Parla.Props.C87_rf1",
    "Parla.Props.C87_qb",
    "Parla.Props.C87_qb_b",
    "Parla.Props.C87_svd1_class",
    "Parla.Props.C87_svd1",
    "Parla.Props.C87_evd2_class",
    "Parla.Props.C87_evd2",
    "Parla.Props.C87_evd1_class",
    "Parla.Props.C87_evd1"
   ],
   "note": ""
  },
  {
   "property": "C88",
   "status": "proved",
   "theorems": [
    "Parla.Props.C88_spo",
    "Parla.Props.C88_sso1_linear",
    "Parla.Props.C88_sso1",
    "Parla.Props.C88_spu1",
    "Parla.Props.C88_sps2",
    "Parla.Props.C88_pcg",
    "Parla.Props.C88_pcss1",
    "Parla.Props.C88_sps1",
    "Parla.Props.C88_sps2_scale",
    "Parla.Props.C88_lsqr",
    "Parla.Props.C88_spo_conditioning",
    "Parla.Props.C88_spo_units"
   ],
   "note": ""
  },
  {
   "property": "C89",
   "status": "proved",
   "theorems": [
    "Parla.Props.C89_evd1_class",
    "Parla.Props.C89_evd1",
    "Parla.Props.C89_evd2_class",
    "Parla.Props.C89_evd2",
    "Parla.Props.C89_rf1",
    "Parla.Props.C89_qb",
    "Parla.Props.C89_qb_b",
    "Parla.Props.C89_svd1_class",
    "Parla.Props.C89_svd1"
   ],
   "note": ""
  },
  {
   "property": "C90",
   "status": "proved",
   "theorems": [
    "Parla.Props.C90_lsqr",
    "Parla.Props.C90_pcg",
    "Parla.Props.C90_pcg_energy",
    "Parla.Props.C90_pcss2_over",
    "Parla.Props.C90_pcss2",
    "Parla.Props.C90_pcss1",
    "Parla.Props.C90_spo",
    "Parla.Props.C90_spu1",
    "Parla.Props.C90_sps1",
    "Parla.Props.C90_sps2",
    "Parla.Props.C90_qb2",
    "Parla.Props.C90_qb2_done",
    "Parla.Props.C90_qb_b",
    "Parla.Props.C90_qb3",
    "Parla.Props.C90_qb_b_pe"
   ],
   "note": ""
  },
  {
   "property": "C91",
   "status": "proved",
   "theorems": [
    "Parla.Props.C91_qb2_lower",
    "Parla.Props.C91_qb_b",
    "Parla.Props.C91_qb_b_tail",
    "Parla.Props.C91_svd1"
   ],
   "note": ""
  },
  {
   "property": "C92",
   "status": "proved",
   "theorems": [
    "Parla.Props.C92_pcg",
    "Parla.Props.C92_lsqr",
    "Parla.Props.C92_pcg_counters",
    "Parla.Props.C92_lsqr_counters",
    "Parla.Props.C92_pcg_budget"
   ],
   "note": ""
  },
  {
   "property": "C93",
   "status": "proved",
   "theorems": [
    "Parla.Props.C93_svd1_vectors",
    "Parla.Props.C93_svd1_values",
    "Parla.Props.C93_evd1_vectors",
    "Parla.Props.C93_evd1_interlacing",
    "Parla.Props.C93_evd1_values",
    "Parla.Props.C93_evd2_values",
    "Parla.Props.C93_svd1_gaussian",
    "Parla.Props.C93_evd1_gaussian",
    "Parla.Props.C93_svd1_tail",
    "Parla.Props.C93_evd1_tail"
   ],
   "note": ""
  },
  {
   "property": "C94",
   "status": "proved",
   "theorems": [
    "Parla.Props.C94_svd1_leading",
    "Parla.Props.C94_svd1_group",
    "Parla.Props.C94_evd1",
    "Parla.Props.C94_evd1_simple",
    "Parla.Props.C94_evd2",
    "Parla.Props.C94_svd1_gaussian",
    "Parla.Props.C94_evd1_gaussian",
    "Parla.Props.C94_svd1_tail",
    "Parla.Props.C94_evd1_tail"
   ],
   "note": ""
  },
  {
   "property": "C95",
   "status": "proved",
   "theorems": [
    "Parla.Props.C95_rf1_error",
    "Parla.Props.C95_rf1_mean",
    "Parla.Props.C95_qb_mean",
    "Parla.Props.C95_qb_b_mean",
    "Parla.Props.C95_svd1",
    "Parla.Props.C95_evd1",
    "Parla.Props.C95_evd2_error",
    "Parla.Props.C95_evd2_mean",
    "Parla.Props.C95_evd2_tail",
    "Parla.Props.C95_qb_b_pe_mean",
    "Parla.Props.C95_qb_b_pe_tail",
    "Parla.Props.C95_rf1_tail",
    "Parla.Props.C95_qb_tail",
    "Parla.Props.C95_qb_b_tail",
    "Parla.Props.C95_svd1_tail",
    "Parla.Props.C95_evd1_tail"
   ],
   "note": ""
  },
  {
   "property": "C96",
   "status": "proved",
   "theorems": [
    "Parla.Props.C96_qb_b",
    "Parla.Props.C96_qb",
    "Parla.Props.C96_qb_b_pe",
    "Parla.Props.C96_agree",
    "Parla.Props.C96_passes",
    "Parla.Props.C96_one_block",
    "Parla.Props.C96_ae",
    "Parla.Props.C96_svd1",
    "Parla.Props.C96_evd1"
   ],
   "note": ""
  },
  {
   "property": "C97",
   "status": "proved",
   "theorems": [
    "Parla.Props.C97_qrcp",
    "Parla.Props.C97_rocs1",
    "Parla.Props.C97_osid1_class",
    "Parla.Props.C97_osid2_class",
    "Parla.Props.C97_osid1",
    "Parla.Props.C97_osid2",
    "Parla.Props.C97_tsid1_class",
    "Parla.Props.C97_tsid1",
    "Parla.Props.C97_cur1_class",
    "Parla.Props.C97_cur1",
    "Parla.Props.C97_cur1_value",
    "Parla.Props.C97_tsid1_value",
    "Parla.Props.C97_osid1_rotate",
    "Parla.Props.C97_osid2_rotate"
   ],
   "note": ""
  },
  {
   "property": "C98",
   "status": "proved",
   "theorems": [
    "Parla.Props.C98_rf1",
    "Parla.Props.C98_qb",
    "Parla.Props.C98_qb_exact",
    "Parla.Props.C98_qb_tail",
    "Parla.Props.C98_svd1",
    "Parla.Props.C98_svd1_values",
    "Parla.Props.C98_svd1_tail",
    "Parla.Props.C98_evd1_tail"
   ],
   "note": ""
  },
  {
   "property": "C99",
   "status": "proved",
   "theorems": [
    "Parla.Props.C99_sso1_linear",
    "Parla.Props.C99_sso1_combine",
    "Parla.Props.C99_sso1_sjlt",
    "Parla.Props.C99_sso1_gaussian",
    "Parla.Props.C99_sso1_srct"
   ],
   "note": ""
  },
  {
   "property": "C100",
   "status": "proved",
   "theorems": [
    "Parla.Props.C100_exact",
    "Parla.Props.C100_evd1_class",
    "Parla.Props.C100_evd1"
   ],
   "note": ""
  },
  {
   "property": "C101",
   "status": "proved",
   "theorems": [
    "Parla.Props.C101_exact",
    "Parla.Props.C101_nu",
    "Parla.Props.C101_evd2_class",
    "Parla.Props.C101_evd2_returns",
    "Parla.Props.C101_evd2"
   ],
   "note": ""
  },
  {
   "property": "C102",
   "status": "proved",
   "theorems": [
    "Parla.Props.C102_exact",
    "Parla.Props.C102_osid1_column",
    "Parla.Props.C102_osid1_row",
    "Parla.Props.C102_tsid1_tall",
    "Parla.Props.C102_tsid1_wide"
   ],
   "note": ""
  },
  {
   "property": "C103",
   "status": "proved",
   "theorems": [
    "Parla.Props.C103_exact",
    "Parla.Props.C103_osid2_column",
    "Parla.Props.C103_osid2_row",
    "Parla.Props.C103_cur1_tall",
    "Parla.Props.C103_cur1_wide"
   ],
   "note": ""
  },
  {
   "property": "C104",
   "status": "proved",
   "theorems": [
    "Parla.Props.C104_exact",
    "Parla.Props.C104_sps1_logging",
    "Parla.Props.C104_sps1"
   ],
   "note": ""
  },
  {
   "property": "C105",
   "status": "proved",
   "theorems": [
    "Parla.Props.C105_svd1",
    "Parla.Props.C105_svd1_error",
    "Parla.Props.C105_evd1",
    "Parla.Props.C105_evd2",
    "Parla.Props.C105_evd2_error",
    "Parla.Props.C105_osid1_column",
    "Parla.Props.C105_osid1_row",
    "Parla.Props.C105_osid2_column",
    "Parla.Props.C105_osid2_row",
    "Parla.Props.C105_functions"
   ],
   "note": ""
  },
  {
   "property": "C106",
   "status": "proved",
   "theorems": [
    "Parla.Props.C106_exact",
    "Parla.Props.C106_sps2",
    "Parla.Props.C106_sps2_total"
   ],
   "note": ""
  },
  {
   "property": "C107",
   "status": "proved",
   "theorems": [
    "Parla.Props.C107_ridge_path",
    "Parla.Props.C107_sso1_path",
    "Parla.Props.C107_sso1_embedding",
    "Parla.Props.C107_spo_path",
    "Parla.Props.C107_saddle_path",
    "Parla.Props.C107_sps_path"
   ],
   "note": ""
  },
  {
   "property": "C108",
   "status": "proved",
   "theorems": [
    "Parla.Props.C108_primal",
    "Parla.Props.C108_primal_converse",
    "Parla.Props.C108_dual",
    "Parla.Props.C108_dual_zero",
    "Parla.Props.C108_stable",
    "Parla.Props.C108_sps_optimal",
    "Parla.Props.C108_sps_linear_stable",
    "Parla.Props.C108_sps_isometry",
    "Parla.Props.C108_sps2_optimal"
   ],
   "note": ""
  }
 ]
}