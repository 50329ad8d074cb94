{
 "claims": [
  {
   "property": "C01",
   "status": "proved",
   "theorems": [
    "Verif.Props.C01_window_count",
    "Verif.Props.C01_bit_and_period",
    "Verif.Props.C01_length_check",
    "Verif.Props.C01_length_check_error"
   ],
   "note": ""
  },
  {
   "property": "C02",
   "status": "proved",
   "theorems": [
    "Verif.Props.C02_temporal_perm",
    "Verif.Props.C02_sobol_perm",
    "Verif.Props.C02_sys_perm",
    "Verif.Props.C02_reject",
    "Verif.Props.C02_case_insensitive"
   ],
   "note": ""
  },
  {
   "property": "C03",
   "status": "proved",
   "theorems": [
    "Verif.Props.C03_race",
    "Verif.Props.C03_race10",
    "Verif.Props.C03_rng"
   ],
   "note": ""
  },
  {
   "property": "C04",
   "status": "proved",
   "theorems": [
    "Verif.Props.C04_lfsr_count",
    "Verif.Props.C04_rng",
    "Verif.Props.C04_lfsr_ones",
    "Verif.Props.C04_lfsr_zero",
    "Verif.Props.C04_lfsr_not_perm"
   ],
   "note": ""
  },
  {
   "property": "C05",
   "status": "proved",
   "theorems": [
    "Verif.Props.C05_nearest",
    "Verif.Props.C05_range",
    "Verif.Props.C05_monotone",
    "Verif.Props.C05_exact",
    "Verif.Props.C05_mode"
   ],
   "note": ""
  },
  {
   "property": "C06",
   "status": "proved",
   "theorems": [
    "Verif.Props.C06_round_trip",
    "Verif.Props.C06_reported"
   ],
   "note": ""
  },
  {
   "property": "C07",
   "status": "proved",
   "theorems": [
    "Verif.Props.C07_nested",
    "Verif.Props.C07_scc"
   ],
   "note": ""
  },
  {
   "property": "C08",
   "status": "proved",
   "theorems": [
    "Verif.Props.C08_net",
    "Verif.Props.C08_prefix",
    "Verif.Props.C08_block"
   ],
   "note": ""
  },
  {
   "property": "C09",
   "status": "proved",
   "theorems": [
    "Verif.Props.C09_reject",
    "Verif.Props.C09_exact",
    "Verif.Props.C09_legal",
    "Verif.Props.C09_full",
    "Verif.Props.C09_zero",
    "Verif.Props.C09_sparse"
   ],
   "note": ""
  },
  {
   "property": "C10",
   "status": "proved",
   "theorems": [
    "Verif.Props.C10_bits",
    "Verif.Props.C10_conservation",
    "Verif.Props.C10_value"
   ],
   "note": ""
  },
  {
   "property": "C11",
   "status": "proved",
   "theorems": [
    "Verif.Props.C11_scc",
    "Verif.Props.C11_excess",
    "Verif.Props.C11_excess_leaks",
    "Verif.Props.C11_dominated",
    "Verif.Props.C11_shape_change"
   ],
   "note": ""
  },
  {
   "property": "C12",
   "status": "proved",
   "theorems": [
    "Verif.Props.C12_regulated",
    "Verif.Props.C12_lower",
    "Verif.Props.C12_exact",
    "Verif.Props.C12_bits"
   ],
   "note": ""
  },
  {
   "property": "C13",
   "status": "proved",
   "theorems": [
    "Verif.Props.C13_exact",
    "Verif.Props.C13_value",
    "Verif.Props.C13_depth3_loses",
    "Verif.Props.C13_dead"
   ],
   "note": ""
  },
  {
   "property": "C14",
   "status": "proved",
   "theorems": [
    "Verif.Props.C14_counts",
    "Verif.Props.C14_textbook",
    "Verif.Props.C14_range",
    "Verif.Props.C14_plus_one",
    "Verif.Props.C14_minus_one",
    "Verif.Props.C14_order",
    "Verif.Props.C14_symmetric",
    "Verif.Props.C14_shape"
   ],
   "note": ""
  },
  {
   "property": "C15",
   "status": "proved",
   "theorems": [
    "Verif.Props.C15_autocorrelation"
   ],
   "note": ""
  },
  {
   "property": "C16",
   "status": "proved",
   "theorems": [
    "Verif.Props.C16_report",
    "Verif.Props.C16_no_observation",
    "Verif.Props.C16_zero_scale",
    "Verif.Props.C16_shape",
    "Verif.Props.C16_report_range"
   ],
   "note": ""
  },
  {
   "property": "C17",
   "status": "proved",
   "theorems": [
    "Verif.Props.C17_report",
    "Verif.Props.C17_shape",
    "Verif.Props.C17_report_range",
    "Verif.Props.C17_report_grows"
   ],
   "note": ""
  },
  {
   "property": "C18",
   "status": "proved",
   "theorems": [
    "Verif.Props.C18_bit",
    "Verif.Props.C18_bounded",
    "Verif.Props.C18_single_clamp",
    "Verif.Props.C18_negative_scale_resaturates"
   ],
   "note": ""
  },
  {
   "property": "C19",
   "status": "proved",
   "theorems": [
    "Verif.Props.C19_exact",
    "Verif.Props.C19_value",
    "Verif.Props.C19_too_shallow"
   ],
   "note": ""
  },
  {
   "property": "C20",
   "status": "proved",
   "theorems": [
    "Verif.Props.C20_balance",
    "Verif.Props.C20_conservation",
    "Verif.Props.C20_value"
   ],
   "note": ""
  },
  {
   "property": "C21",
   "status": "proved",
   "theorems": [
    "Verif.Props.C21_silent",
    "Verif.Props.C21_not_silent"
   ],
   "note": ""
  },
  {
   "property": "C22",
   "status": "proved",
   "theorems": [
    "Verif.Props.C22_resolved",
    "Verif.Props.C22_frozen",
    "Verif.Props.C22_mode"
   ],
   "note": ""
  },
  {
   "property": "C23",
   "status": "proved",
   "theorems": [
    "Verif.Props.C23_monotone"
   ],
   "note": ""
  },
  {
   "property": "C24",
   "status": "proved",
   "theorems": [
    "Verif.Props.C24_bit",
    "Verif.Props.C24_bits",
    "Verif.Props.C24_count",
    "Verif.Props.C24_exact",
    "Verif.Props.C24_needs_prob"
   ],
   "note": ""
  },
  {
   "property": "C25",
   "status": "proved",
   "theorems": [
    "Verif.Props.C25_bit",
    "Verif.Props.C25_count",
    "Verif.Props.C25_exact"
   ],
   "note": ""
  },
  {
   "property": "C26",
   "status": "proved",
   "theorems": [
    "Verif.Props.C26_error",
    "Verif.Props.C26_quantised",
    "Verif.Props.C26_real",
    "Verif.Props.C26_end_to_end",
    "Verif.Props.C26_end_to_end_unipolar"
   ],
   "note": ""
  },
  {
   "property": "C27",
   "status": "proved",
   "theorems": [
    "Verif.Props.C27_bit",
    "Verif.Props.C27_window",
    "Verif.Props.C27_warmup",
    "Verif.Props.C27_static"
   ],
   "note": ""
  },
  {
   "property": "C28",
   "status": "proved",
   "theorems": [
    "Verif.Props.C28_bit",
    "Verif.Props.C28_after_command",
    "Verif.Props.C28_no_command"
   ],
   "note": ""
  },
  {
   "property": "C29",
   "status": "proved",
   "theorems": [
    "Verif.Props.C29_masked",
    "Verif.Props.C29_delay",
    "Verif.Props.C29_index"
   ],
   "note": ""
  },
  {
   "property": "C30",
   "status": "proved",
   "theorems": [
    "Verif.Props.C30_xor",
    "Verif.Props.C30_sign",
    "Verif.Props.C30_sign_in_range",
    "Verif.Props.C30_abs_value"
   ],
   "note": ""
  },
  {
   "property": "C31",
   "status": "proved",
   "theorems": [
    "Verif.Props.C31_dominates",
    "Verif.Props.C31_nonneg",
    "Verif.Props.C31_identity",
    "Verif.Props.C31_zero_input"
   ],
   "note": ""
  },
  {
   "property": "C32",
   "status": "proved",
   "theorems": [
    "Verif.Props.C32_sigmoid_uni2bi",
    "Verif.Props.C32_sigmoid_exact",
    "Verif.Props.C32_sigmoid_value",
    "Verif.Props.C32_hub_sigmoid",
    "Verif.Props.C32_tanh",
    "Verif.Props.C32_hub_relu",
    "Verif.Props.C32_agree"
   ],
   "note": ""
  },
  {
   "property": "C33",
   "status": "proved",
   "theorems": [
    "Verif.Props.C33_quotient",
    "Verif.Props.C33_bits",
    "Verif.Props.C33_settled"
   ],
   "note": ""
  },
  {
   "property": "C34",
   "status": "proved",
   "theorems": [
    "Verif.Props.C34_initial_calls",
    "Verif.Props.C34_fails",
    "Verif.Props.C34_built",
    "Verif.Props.C34_refused"
   ],
   "note": ""
  },
  {
   "property": "C35",
   "status": "proved",
   "theorems": [
    "Verif.Props.C35_composition",
    "Verif.Props.C35_by_one",
    "Verif.Props.C35_self",
    "Verif.Props.C35_zero",
    "Verif.Props.C35_bits"
   ],
   "note": ""
  },
  {
   "property": "C36",
   "status": "proved",
   "theorems": [
    "Verif.Props.C36_accepts",
    "Verif.Props.C36_bits",
    "Verif.Props.C36_dominates",
    "Verif.Props.C36_pairs",
    "Verif.Props.C36_count",
    "Verif.Props.C36_isolated",
    "Verif.Props.C36_alternating",
    "Verif.Props.C36_cordiv"
   ],
   "note": ""
  },
  {
   "property": "C37",
   "status": "proved",
   "theorems": [
    "Verif.Props.C37_balance",
    "Verif.Props.C37_constants",
    "Verif.Props.C37_sequence_unused"
   ],
   "note": ""
  },
  {
   "property": "C38",
   "status": "proved",
   "theorems": [
    "Verif.Props.C38_count",
    "Verif.Props.C38_card",
    "Verif.Props.C38_args"
   ],
   "note": ""
  },
  {
   "property": "C39",
   "status": "proved",
   "theorems": [
    "Verif.Props.C39_round_trip"
   ],
   "note": ""
  },
  {
   "property": "C40",
   "status": "proved",
   "theorems": [
    "Verif.Props.C40_round_trip_iff",
    "Verif.Props.C40_axes",
    "Verif.Props.C40_shape_inverse",
    "Verif.Props.C40_violated"
   ],
   "note": ""
  },
  {
   "property": "C41",
   "status": "proved",
   "theorems": [
    "Verif.Props.C41_gradient",
    "Verif.Props.C41_representable",
    "Verif.Props.C41_nearest",
    "Verif.Props.C41_half_unit",
    "Verif.Props.C41_monotone_odd",
    "Verif.Props.C41_idempotent",
    "Verif.Props.C41_negative_width"
   ],
   "note": ""
  },
  {
   "property": "C42",
   "status": "proved",
   "theorems": [
    "Verif.Props.C42_grid",
    "Verif.Props.C42_idempotent",
    "Verif.Props.C42_clip_error",
    "Verif.Props.C42_norm",
    "Verif.Props.C42_schedule",
    "Verif.Props.C42_errors"
   ],
   "note": ""
  },
  {
   "property": "C43",
   "status": "proved",
   "theorems": [
    "Verif.Props.C43_inside",
    "Verif.Props.C43_first_inside",
    "Verif.Props.C43_returns_iff"
   ],
   "note": ""
  },
  {
   "property": "C44",
   "status": "proved",
   "theorems": [
    "Verif.Props.C44_products",
    "Verif.Props.C44_range",
    "Verif.Props.C44_total",
    "Verif.Props.C44_bias_needs_value",
    "Verif.Props.C44_batch_change",
    "Verif.Props.C44_built"
   ],
   "note": ""
  },
  {
   "property": "C45",
   "status": "proved",
   "theorems": [
    "Verif.Props.C45_runs",
    "Verif.Props.C45_lanes",
    "Verif.Props.C45_floor",
    "Verif.Props.C45_products",
    "Verif.Props.C45_value",
    "Verif.Props.C45_end_to_end",
    "Verif.Props.C45_silent",
    "Verif.Props.C45_other_scale",
    "Verif.Props.C45_refused"
   ],
   "note": ""
  },
  {
   "property": "C46",
   "status": "proved",
   "theorems": [
    "Verif.Props.C46_table",
    "Verif.Props.C46_sobol",
    "Verif.Props.C46_both_temporal",
    "Verif.Props.C46_no_cycle",
    "Verif.Props.C46_widths_differ",
    "Verif.Props.C46_temporal_weight",
    "Verif.Props.C46_table_shape"
   ],
   "note": ""
  },
  {
   "property": "C47",
   "status": "proved",
   "theorems": [
    "Verif.Props.C47_forward",
    "Verif.Props.C47_end_to_end",
    "Verif.Props.C47_zero_row",
    "Verif.Props.C47_odd"
   ],
   "note": ""
  },
  {
   "property": "C48",
   "status": "proved",
   "theorems": [
    "Verif.Props.C48_forward",
    "Verif.Props.C48_error",
    "Verif.Props.C48_exceeds"
   ],
   "note": ""
  },
  {
   "property": "C49",
   "status": "proved",
   "theorems": [
    "Verif.Props.C49_degree",
    "Verif.Props.C49_digits",
    "Verif.Props.C49_lossless",
    "Verif.Props.C49_error",
    "Verif.Props.C49_fpfp"
   ],
   "note": ""
  },
  {
   "property": "C50",
   "status": "proved",
   "theorems": [
    "Verif.Props.C50_layer_operands",
    "Verif.Props.C50_fxpfxp",
    "Verif.Props.C50_limited",
    "Verif.Props.C50_fpfp",
    "Verif.Props.C50_mixed"
   ],
   "note": ""
  },
  {
   "property": "C51",
   "status": "proved",
   "theorems": [
    "Verif.Props.C51_gradient",
    "Verif.Props.C51_unique",
    "Verif.Props.C51_needs"
   ],
   "note": ""
  },
  {
   "property": "C52",
   "status": "proved",
   "theorems": [
    "Verif.Props.C52_positions",
    "Verif.Props.C52_size",
    "Verif.Props.C52_pipeline",
    "Verif.Props.C52_too_large",
    "Verif.Props.C52_fxp",
    "Verif.Props.C52_fxp_error",
    "Verif.Props.C52_hub",
    "Verif.Props.C52_tlut",
    "Verif.Props.C52_tlut_exact",
    "Verif.Props.C52_fsu_counts",
    "Verif.Props.C52_fsu_end_to_end",
    "Verif.Props.C52_pair_padding",
    "Verif.Props.C52_pair"
   ],
   "note": ""
  },
  {
   "property": "C53",
   "status": "proved",
   "theorems": [
    "Verif.Props.C53_padding",
    "Verif.Props.C53_value"
   ],
   "note": ""
  },
  {
   "property": "C54",
   "status": "proved",
   "theorems": [
    "Verif.Props.C54_step",
    "Verif.Props.C54_recovers",
    "Verif.Props.C54_sequence",
    "Verif.Props.C54_batch",
    "Verif.Props.C54_hard",
    "Verif.Props.C54_gate",
    "Verif.Props.C54_soft",
    "Verif.Props.C54_hard_sequence"
   ],
   "note": ""
  },
  {
   "property": "C55",
   "status": "proved",
   "theorems": [
    "Verif.Props.C55_grid",
    "Verif.Props.C55_legal",
    "Verif.Props.C55_sequence",
    "Verif.Props.C55_sequence_any",
    "Verif.Props.C55_error",
    "Verif.Props.C55_no_intwidth"
   ],
   "note": ""
  },
  {
   "property": "C56",
   "status": "proved",
   "theorems": [
    "Verif.Props.C56_run",
    "Verif.Props.C56_bits",
    "Verif.Props.C56_refused",
    "Verif.Props.C56_gate",
    "Verif.Props.C56_product",
    "Verif.Props.C56_balance"
   ],
   "note": ""
  },
  {
   "property": "C57",
   "status": "proved",
   "theorems": [
    "Verif.Props.C57_products",
    "Verif.Props.C57_race",
    "Verif.Props.C57_built"
   ],
   "note": ""
  },
  {
   "property": "C58",
   "status": "proved",
   "theorems": [
    "Verif.Props.C58_shift_covers",
    "Verif.Props.C58_full",
    "Verif.Props.C58_quantile",
    "Verif.Props.C58_scale_unique",
    "Verif.Props.C58_zero",
    "Verif.Props.C58_unique"
   ],
   "note": ""
  },
  {
   "property": "C59",
   "status": "proved",
   "theorems": [
    "Verif.Props.C59_value",
    "Verif.Props.C59_inputs",
    "Verif.Props.C59_refused"
   ],
   "note": ""
  },
  {
   "property": "C60",
   "status": "proved",
   "theorems": [
    "Verif.Props.C60_clip",
    "Verif.Props.C60_unipolar_value",
    "Verif.Props.C60_bipolar_value",
    "Verif.Props.C60_sum"
   ],
   "note": ""
  },
  {
   "property": "C61",
   "status": "proved",
   "theorems": [
    "Verif.Props.C61_static",
    "Verif.Props.C61_source",
    "Verif.Props.C61_stream",
    "Verif.Props.C61_linear",
    "Verif.Props.C61_linear_unipolar"
   ],
   "note": ""
  },
  {
   "property": "C62",
   "status": "proved",
   "theorems": [
    "Verif.Props.C62_rates",
    "Verif.Props.C62_value",
    "Verif.Props.C62_hybrid",
    "Verif.Props.C62_sensitivity",
    "Verif.Props.C62_end_to_end"
   ],
   "note": ""
  },
  {
   "property": "C63",
   "status": "proved",
   "theorems": [
    "Verif.Props.C63_skewed_sync",
    "Verif.Props.C63_sqrt"
   ],
   "note": ""
  },
  {
   "property": "C64",
   "status": "proved",
   "theorems": [
    "Verif.Props.C64_jkff",
    "Verif.Props.C64_uni2bi",
    "Verif.Props.C64_bi2uni",
    "Verif.Props.C64_bi2uni_wraps"
   ],
   "note": ""
  },
  {
   "property": "C65",
   "status": "proved",
   "theorems": [
    "Verif.Props.C65_sign",
    "Verif.Props.C65_abs",
    "Verif.Props.C65_abs_count"
   ],
   "note": ""
  },
  {
   "property": "C66",
   "status": "proved",
   "theorems": [
    "Verif.Props.C66_sequence",
    "Verif.Props.C66_permutation",
    "Verif.Props.C66_uni_bit",
    "Verif.Props.C66_bi_bit",
    "Verif.Props.C66_uni",
    "Verif.Props.C66_bi",
    "Verif.Props.C66_uni_exact",
    "Verif.Props.C66_second_period"
   ],
   "note": ""
  },
  {
   "property": "C67",
   "status": "proved",
   "theorems": [
    "Verif.Props.C67_parallel_counters",
    "Verif.Props.C67_usadd8",
    "Verif.Props.C67_usadd16",
    "Verif.Props.C67_unsadd8",
    "Verif.Props.C67_unsadd16",
    "Verif.Props.C67_unsadd16_negative",
    "Verif.Props.C67_mac_uni",
    "Verif.Props.C67_mac_bi",
    "Verif.Props.C67_linear"
   ],
   "note": ""
  },
  {
   "property": "C68",
   "status": "proved",
   "theorems": [
    "Verif.Props.C68_cordiv_bit",
    "Verif.Props.C68_cordiv_agree",
    "Verif.Props.C68_cordiv_one",
    "Verif.Props.C68_divider",
    "Verif.Props.C68_cordiv_locks",
    "Verif.Props.C68_gdiv",
    "Verif.Props.C68_gsqrt",
    "Verif.Props.C68_skewed_sync_int",
    "Verif.Props.C68_sqrt_feed",
    "Verif.Props.C68_bipolar_sqrt"
   ],
   "note": ""
  },
  {
   "property": "C69",
   "status": "proved",
   "theorems": [
    "Verif.Props.C69_rounding",
    "Verif.Props.C69_add",
    "Verif.Props.C69_add_streams",
    "Verif.Props.C69_convert",
    "Verif.Props.C69_sync",
    "Verif.Props.C69_signabs",
    "Verif.Props.C69_convert_stuck"
   ],
   "note": ""
  },
  {
   "property": "C70",
   "status": "proved",
   "theorems": [
    "Verif.Props.C70_unipolar",
    "Verif.Props.C70_bipolar",
    "Verif.Props.C70_agree",
    "Verif.Props.C70_grid",
    "Verif.Props.C70_double_rounding",
    "Verif.Props.C70_rawscale"
   ],
   "note": ""
  },
  {
   "property": "C71",
   "status": "proved",
   "theorems": [
    "Verif.Props.C71_counters",
    "Verif.Props.C71_value",
    "Verif.Props.C71_exhausted",
    "Verif.Props.C71_exhausted_witness",
    "Verif.Props.C71_correlation",
    "Verif.Props.C71_correlation_error",
    "Verif.Props.C71_correlation_witness"
   ],
   "note": ""
  },
  {
   "property": "C72",
   "status": "proved",
   "theorems": [
    "Verif.Props.C72_conv",
    "Verif.Props.C72_network",
    "Verif.Props.C72_quantised",
    "Verif.Props.C72_end_to_end",
    "Verif.Props.C72_relu",
    "Verif.Props.C72_relu_shallow",
    "Verif.Props.C72_hardsigmoid"
   ],
   "note": ""
  },
  {
   "property": "C73",
   "status": "proved",
   "theorems": [
    "Verif.Props.C73_network",
    "Verif.Props.C73_quantised",
    "Verif.Props.C73_end_to_end"
   ],
   "note": ""
  },
  {
   "property": "C74",
   "status": "proved",
   "theorems": [
    "Verif.Props.C74_lipschitz",
    "Verif.Props.C74_hybrid_sequence",
    "Verif.Props.C74_fxp_sequence",
    "Verif.Props.C74_keeps"
   ],
   "note": ""
  },
  {
   "property": "C75",
   "status": "proved",
   "theorems": [
    "Verif.Props.C75_weight",
    "Verif.Props.C75_weight_conv",
    "Verif.Props.C75_bias",
    "Verif.Props.C75_tlut",
    "Verif.Props.C75_tlut_conv",
    "Verif.Props.C75_fxp",
    "Verif.Props.C75_runs",
    "Verif.Props.C75_hub",
    "Verif.Props.C75_zero_cycle",
    "Verif.Props.C75_cell",
    "Verif.Props.C75_cell_forward"
   ],
   "note": ""
  },
  {
   "property": "C76",
   "status": "proved",
   "theorems": [
    "Verif.Props.C76_gdiv",
    "Verif.Props.C76_gsqrt",
    "Verif.Props.C76_in_stream",
    "Verif.Props.C76_in_stream_wrap",
    "Verif.Props.C76_in_stream_bipolar",
    "Verif.Props.C76_sqrt_is_odd",
    "Verif.Props.C76_sqrt_is_even",
    "Verif.Props.C76_sqrt_is_small",
    "Verif.Props.C76_sqrt_is_bipolar",
    "Verif.Props.C76_sqrt_o",
    "Verif.Props.C76_sqrt_o_bipolar",
    "Verif.Props.C76_sqrt_o_wrap",
    "Verif.Props.C76_div_bipolar"
   ],
   "note": ""
  },
  {
   "property": "C77",
   "status": "proved",
   "theorems": [
    "Verif.Props.C77_gaines_uni_bit",
    "Verif.Props.C77_gaines_bi_bit",
    "Verif.Props.C77_gaines_uni",
    "Verif.Props.C77_gaines_bi",
    "Verif.Props.C77_gaines_uni_not_product",
    "Verif.Props.C77_gaines_bi_not_product",
    "Verif.Props.C77_deterministic_bit",
    "Verif.Props.C77_deterministic_uni",
    "Verif.Props.C77_deterministic_bi",
    "Verif.Props.C77_temporal_bit",
    "Verif.Props.C77_temporal_uni",
    "Verif.Props.C77_temporal_error",
    "Verif.Props.C77_temporal_reload",
    "Verif.Props.C77_temporal_bi_stuck"
   ],
   "note": ""
  },
  {
   "property": "C78",
   "status": "proved",
   "theorems": [
    "Verif.Props.C78_apc_extremes",
    "Verif.Props.C78_mux_rng_bit",
    "Verif.Props.C78_mux_rng",
    "Verif.Props.C78_mux_rng_constant",
    "Verif.Props.C78_mux_rng_correlated",
    "Verif.Props.C78_dadd_bit",
    "Verif.Props.C78_dadd",
    "Verif.Props.C78_or",
    "Verif.Props.C78_apc",
    "Verif.Props.C78_apc_period",
    "Verif.Props.C78_apc16",
    "Verif.Props.C78_binary",
    "Verif.Props.C78_mac",
    "Verif.Props.C78_unsadd16_uni",
    "Verif.Props.C78_unsadd16_uni_wraps"
   ],
   "note": ""
  },
  {
   "property": "C79",
   "status": "proved",
   "theorems": [
    "Verif.Props.C79_gaines_scaled_bit",
    "Verif.Props.C79_gaines_scaled",
    "Verif.Props.C79_gaines_scaled_dead",
    "Verif.Props.C79_gaines_nonscaled",
    "Verif.Props.C79_deterministic_scaled",
    "Verif.Props.C79_deterministic_nonscaled",
    "Verif.Props.C79_temporal_scaled_bit",
    "Verif.Props.C79_temporal_scaled_dead",
    "Verif.Props.C79_temporal_nonscaled",
    "Verif.Props.C79_umac_uni",
    "Verif.Props.C79_umac_bi"
   ],
   "note": ""
  },
  {
   "property": "C80",
   "status": "proved",
   "theorems": [
    "Verif.Props.C80_halton_stratified",
    "Verif.Props.C80_halton2_stratified",
    "Verif.Props.C80_gray_step",
    "Verif.Props.C80_gray_injective",
    "Verif.Props.C80_halton2",
    "Verif.Props.C80_halton",
    "Verif.Props.C80_halton_rate",
    "Verif.Props.C80_halton2_rate"
   ],
   "note": ""
  },
  {
   "property": "C81",
   "status": "proved",
   "theorems": [
    "Verif.Props.C81_relu",
    "Verif.Props.C81_sqrt_stuck",
    "Verif.Props.C81_sqrt_zero",
    "Verif.Props.C81_gdiv",
    "Verif.Props.C81_gdiv_floor",
    "Verif.Props.C81_gsqrt",
    "Verif.Props.C81_skewed_sync",
    "Verif.Props.C81_cordiv",
    "Verif.Props.C81_cordiv_agree",
    "Verif.Props.C81_iscbdiv",
    "Verif.Props.C81_iscbdiv_stuck",
    "Verif.Props.C81_sqrt_jk_count",
    "Verif.Props.C81_sqrt_jk_runs",
    "Verif.Props.C81_is_sqrt",
    "Verif.Props.C81_is_sqrt_select",
    "Verif.Props.C81_cordivall",
    "Verif.Props.C81_cordivall_wrap",
    "Verif.Props.C81_data_buf"
   ],
   "note": ""
  },
  {
   "property": "C82",
   "status": "proved",
   "theorems": [
    "Verif.Props.C82_bit",
    "Verif.Props.C82_mean",
    "Verif.Props.C82_exp"
   ],
   "note": ""
  },
  {
   "property": "C83",
   "status": "proved",
   "theorems": [
    "Verif.Props.C83_composition",
    "Verif.Props.C83_self",
    "Verif.Props.C83_by_unit",
    "Verif.Props.C83_units",
    "Verif.Props.C83_steady"
   ],
   "note": ""
  },
  {
   "property": "C84",
   "status": "proved",
   "theorems": [
    "Verif.Props.C84_jk",
    "Verif.Props.C84_jk_unique",
    "Verif.Props.C84_jk_phase",
    "Verif.Props.C84_cordiv",
    "Verif.Props.C84_balance"
   ],
   "note": ""
  },
  {
   "property": "C85",
   "status": "proved",
   "theorems": [
    "Verif.Props.C85_linear",
    "Verif.Props.C85_quantile",
    "Verif.Props.C85_conv",
    "Verif.Props.C85_zero_cycle"
   ],
   "note": ""
  },
  {
   "property": "C86",
   "status": "proved",
   "theorems": [
    "Verif.Props.C86_gradient",
    "Verif.Props.C86_unique",
    "Verif.Props.C86_needs",
    "Verif.Props.C86_too_large"
   ],
   "note": ""
  },
  {
   "property": "C87",
   "status": "proved",
   "theorems": [
    "Verif.Props.C87_conv_fixed",
    "Verif.Props.C87_conv_hybrid",
    "Verif.Props.C87_fixed_output",
    "Verif.Props.C87_hybrid_output",
    "Verif.Props.C87_fixed",
    "Verif.Props.C87_hybrid",
    "Verif.Props.C87_order"
   ],
   "note": ""
  },
  {
   "property": "C88",
   "status": "proved",
   "theorems": [
    "Verif.Props.C88_shifts",
    "Verif.Props.C88_range",
    "Verif.Props.C88_shift_agree"
   ],
   "note": ""
  },
  {
   "property": "C89",
   "status": "proved",
   "theorems": [
    "Verif.Props.C89_multiplier",
    "Verif.Props.C89_counter",
    "Verif.Props.C89_linear",
    "Verif.Props.C89_conv",
    "Verif.Props.C89_cell"
   ],
   "note": ""
  },
  {
   "property": "C90",
   "status": "proved",
   "theorems": [
    "Verif.Props.C90_product",
    "Verif.Props.C90_fixed",
    "Verif.Props.C90_mixed",
    "Verif.Props.C90_float",
    "Verif.Props.C90_gradient",
    "Verif.Props.C90_conv_fixed",
    "Verif.Props.C90_conv_mixed",
    "Verif.Props.C90_conv_float"
   ],
   "note": ""
  },
  {
   "property": "C91",
   "status": "proved",
   "theorems": [
    "Verif.Props.C91_legal",
    "Verif.Props.C91_error",
    "Verif.Props.C91_gate",
    "Verif.Props.C91_calls",
    "Verif.Props.C91_runs",
    "Verif.Props.C91_sequence",
    "Verif.Props.C91_fixed",
    "Verif.Props.C91_fixed_sequence",
    "Verif.Props.C91_fixed_needs"
   ],
   "note": ""
  },
  {
   "property": "C92",
   "status": "proved",
   "theorems": [
    "Verif.Props.C92_adder",
    "Verif.Props.C92_linear",
    "Verif.Props.C92_conv",
    "Verif.Props.C92_scale",
    "Verif.Props.C92_conv_scale",
    "Verif.Props.C92_balance"
   ],
   "note": ""
  },
  {
   "property": "C93",
   "status": "proved",
   "theorems": [
    "Verif.Props.C93_fixed",
    "Verif.Props.C93_hybrid",
    "Verif.Props.C93_lookup",
    "Verif.Props.C93_company",
    "Verif.Props.C93_float_rows",
    "Verif.Props.C93_swamped",
    "Verif.Props.C93_stream_counts",
    "Verif.Props.C93_stream_rows",
    "Verif.Props.C93_interference",
    "Verif.Props.C93_zero_cycle"
   ],
   "note": ""
  },
  {
   "property": "C94",
   "status": "proved",
   "theorems": [
    "Verif.Props.C94_fixed",
    "Verif.Props.C94_hybrid",
    "Verif.Props.C94_lookup",
    "Verif.Props.C94_lookup_float",
    "Verif.Props.C94_company",
    "Verif.Props.C94_stream",
    "Verif.Props.C94_stream_counts",
    "Verif.Props.C94_unreached"
   ],
   "note": ""
  },
  {
   "property": "C95",
   "status": "proved",
   "theorems": [
    "Verif.Props.C95_quantile",
    "Verif.Props.C95_scale",
    "Verif.Props.C95_rawscale",
    "Verif.Props.C95_fixed",
    "Verif.Props.C95_hybrid",
    "Verif.Props.C95_lookup_fixed",
    "Verif.Props.C95_lookup_mixed",
    "Verif.Props.C95_conv_fixed",
    "Verif.Props.C95_conv_hybrid",
    "Verif.Props.C95_conv_lookup_fixed",
    "Verif.Props.C95_conv_lookup_mixed"
   ],
   "note": ""
  },
  {
   "property": "C96",
   "status": "proved",
   "theorems": [
    "Verif.Props.C96_range",
    "Verif.Props.C96_named",
    "Verif.Props.C96_stream",
    "Verif.Props.C96_widths",
    "Verif.Props.C96_source",
    "Verif.Props.C96_coarse",
    "Verif.Props.C96_loss",
    "Verif.Props.C96_sync",
    "Verif.Props.C96_bi2uni",
    "Verif.Props.C96_uni2bi",
    "Verif.Props.C96_signabs",
    "Verif.Props.C96_relu",
    "Verif.Props.C96_relu_swapped",
    "Verif.Props.C96_signabs_wrap",
    "Verif.Props.C96_unsigned_signabs",
    "Verif.Props.C96_unsigned_sync",
    "Verif.Props.C96_add",
    "Verif.Props.C96_add_loss",
    "Verif.Props.C96_counter",
    "Verif.Props.C96_counter_wrap"
   ],
   "note": ""
  },
  {
   "property": "C97",
   "status": "proved",
   "theorems": [
    "Verif.Props.C97_sequences",
    "Verif.Props.C97_network",
    "Verif.Props.C97_same",
    "Verif.Props.C97_end_to_end",
    "Verif.Props.C97_images",
    "Verif.Props.C97_images_end_to_end"
   ],
   "note": ""
  },
  {
   "property": "C98",
   "status": "proved",
   "theorems": [
    "Verif.Props.C98_cell",
    "Verif.Props.C98_hybrid",
    "Verif.Props.C98_end_to_end"
   ],
   "note": ""
  },
  {
   "property": "C99",
   "status": "proved",
   "theorems": [
    "Verif.Props.C99_gap",
    "Verif.Props.C99_kernel",
    "Verif.Props.C99_odd",
    "Verif.Props.C99_exact",
    "Verif.Props.C99_repeats",
    "Verif.Props.C99_steady",
    "Verif.Props.C99_sources",
    "Verif.Props.C99_locked",
    "Verif.Props.C99_quarter"
   ],
   "note": ""
  },
  {
   "property": "C100",
   "status": "proved",
   "theorems": [
    "Verif.Props.C100_bi2uni",
    "Verif.Props.C100_uni2bi",
    "Verif.Props.C100_signabs",
    "Verif.Props.C100_relu",
    "Verif.Props.C100_jkff",
    "Verif.Props.C100_sync",
    "Verif.Props.C100_mul",
    "Verif.Props.C100_add",
    "Verif.Props.C100_shiftreg",
    "Verif.Props.C100_mul_stream",
    "Verif.Props.C100_div",
    "Verif.Props.C100_sqrt",
    "Verif.Props.C100_constant",
    "Verif.Props.C100_element",
    "Verif.Props.C100_resized",
    "Verif.Props.C100_inherits"
   ],
   "note": ""
  },
  {
   "property": "C101",
   "status": "proved",
   "theorems": [
    "Verif.Props.C101_jkff",
    "Verif.Props.C101_sqrt",
    "Verif.Props.C101_sqrt_count",
    "Verif.Props.C101_sqrt_low",
    "Verif.Props.C101_kernel",
    "Verif.Props.C101_div",
    "Verif.Props.C101_div_count",
    "Verif.Props.C101_mul",
    "Verif.Props.C101_mul_stream"
   ],
   "note": ""
  },
  {
   "property": "C102",
   "status": "proved",
   "theorems": [
    "Verif.Props.C102_bi2uni",
    "Verif.Props.C102_uni2bi",
    "Verif.Props.C102_signabs",
    "Verif.Props.C102_relu",
    "Verif.Props.C102_jkff",
    "Verif.Props.C102_sync",
    "Verif.Props.C102_typed",
    "Verif.Props.C102_mul",
    "Verif.Props.C102_add",
    "Verif.Props.C102_add_width",
    "Verif.Props.C102_add_scale",
    "Verif.Props.C102_shiftreg",
    "Verif.Props.C102_mul_stream",
    "Verif.Props.C102_in_part",
    "Verif.Props.C102_cordiv",
    "Verif.Props.C102_div",
    "Verif.Props.C102_sqrt",
    "Verif.Props.C102_sqrt_jk",
    "Verif.Props.C102_stability",
    "Verif.Props.C102_stability_forgets",
    "Verif.Props.C102_corr",
    "Verif.Props.C102_linear",
    "Verif.Props.C102_linear_differs",
    "Verif.Props.C102_fsu_linear",
    "Verif.Props.C102_fsu_conv",
    "Verif.Props.C102_fsu_conv_differs"
   ],
   "note": ""
  },
  {
   "property": "C103",
   "status": "proved",
   "theorems": [
    "Verif.Props.C103_add",
    "Verif.Props.C103_bi2uni",
    "Verif.Props.C103_uni2bi",
    "Verif.Props.C103_relu",
    "Verif.Props.C103_sync",
    "Verif.Props.C103_mul",
    "Verif.Props.C103_mul_second",
    "Verif.Props.C103_mul_first_unbounded",
    "Verif.Props.C103_signabs_unbounded",
    "Verif.Props.C103_jkff_unbounded",
    "Verif.Props.C103_div_recovers",
    "Verif.Props.C103_div_unbounded",
    "Verif.Props.C103_linear",
    "Verif.Props.C103_linear_counts",
    "Verif.Props.C103_conv",
    "Verif.Props.C103_chain",
    "Verif.Props.C103_relu_counts",
    "Verif.Props.C103_relu_counts_needs_room",
    "Verif.Props.C103_chain_relu"
   ],
   "note": ""
  },
  {
   "property": "C104",
   "status": "proved",
   "theorems": [
    "Verif.Props.C104_bi2uni",
    "Verif.Props.C104_uni2bi",
    "Verif.Props.C104_relu",
    "Verif.Props.C104_signabs",
    "Verif.Props.C104_jkff",
    "Verif.Props.C104_sync",
    "Verif.Props.C104_add",
    "Verif.Props.C104_jkff_int8_shared",
    "Verif.Props.C104_sync_second_shared",
    "Verif.Props.C104_cordiv",
    "Verif.Props.C104_div_unipolar",
    "Verif.Props.C104_div_bipolar",
    "Verif.Props.C104_mul_static",
    "Verif.Props.C104_mul_stream",
    "Verif.Props.C104_sqrt_emit",
    "Verif.Props.C104_sqrt_jk",
    "Verif.Props.C104_sqrt_div",
    "Verif.Props.C104_addresses",
    "Verif.Props.C104_progerror_copied",
    "Verif.Props.C104_stability",
    "Verif.Props.C104_progerror_shared",
    "Verif.Props.C104_bingen",
    "Verif.Props.C104_bsgen_shared",
    "Verif.Props.C104_shiftreg",
    "Verif.Props.C104_correlation"
   ],
   "note": ""
  },
  {
   "property": "C105",
   "status": "proved",
   "theorems": [
    "Verif.Props.C105_outlier",
    "Verif.Props.C105_absolute",
    "Verif.Props.C105_relative",
    "Verif.Props.C105_relative_zero",
    "Verif.Props.C105_value_fails"
   ],
   "note": ""
  },
  {
   "property": "C106",
   "status": "proved",
   "theorems": [
    "Verif.Props.C106_linear_pc",
    "Verif.Props.C106_linear_pc_weights",
    "Verif.Props.C106_linear",
    "Verif.Props.C106_linear_weights",
    "Verif.Props.C106_conv_pc",
    "Verif.Props.C106_conv_pc_weights",
    "Verif.Props.C106_conv",
    "Verif.Props.C106_conv_weights",
    "Verif.Props.C106_add",
    "Verif.Props.C106_hub_linear",
    "Verif.Props.C106_fxp_linear",
    "Verif.Props.C106_hub_conv",
    "Verif.Props.C106_fxp_conv",
    "Verif.Props.C106_tlut_linear",
    "Verif.Props.C106_tlut_conv",
    "Verif.Props.C106_mgu",
    "Verif.Props.C106_mgu_fxp",
    "Verif.Props.C106_fsu_mgu",
    "Verif.Props.C106_fsu_mgu_weights",
    "Verif.Props.C106_relu",
    "Verif.Props.C106_relu_inplace",
    "Verif.Props.C106_hub_linear_ext",
    "Verif.Props.C106_fxp_linear_ext",
    "Verif.Props.C106_hub_conv_ext",
    "Verif.Props.C106_fxp_conv_ext",
    "Verif.Props.C106_tlut_linear_ext",
    "Verif.Props.C106_tlut_conv_ext"
   ],
   "note": ""
  },
  {
   "property": "C107",
   "status": "proved",
   "theorems": [
    "Verif.Props.C107_net",
    "Verif.Props.C107_alone",
    "Verif.Props.C107_weights"
   ],
   "note": ""
  },
  {
   "property": "C108",
   "status": "proved",
   "theorems": [
    "Verif.Props.C108_hub_mgu",
    "Verif.Props.C108_present",
    "Verif.Props.C108_write",
    "Verif.Props.C108_write_shows"
   ],
   "note": ""
  }
 ]
}
