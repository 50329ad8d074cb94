# Axioms per theorem

Generated by `tools/axioms.py` from `#print axioms`.

## propext, Classical.choice, Quot.sound (668)

`C01_window_count`, `C01_bit_and_period`, `C01_length_check`, `C02_temporal_perm`, `C02_sobol_perm`, `C02_sys_perm`, `C02_reject`, `C02_case_insensitive`, `C03_race`, `C03_race10`, `C03_rng`, `C04_lfsr_count`, `C04_rng`, `C04_lfsr_ones`, `C04_lfsr_zero`, `C04_lfsr_not_perm`, `C05_nearest`, `C05_range`, `C05_monotone`, `C05_exact`, `C05_mode`, `C06_round_trip`, `C06_reported`, `C07_scc`, `C08_net`, `C08_prefix`, `C08_block`, `C09_reject`, `C09_exact`, `C09_legal`, `C09_full`, `C09_zero`, `C09_sparse`, `C10_bits`, `C10_conservation`, `C10_value`, `C11_scc`, `C11_excess`, `C11_excess_leaks`, `C11_dominated`, `C11_shape_change`, `C12_regulated`, `C12_lower`, `C12_exact`, `C12_bits`, `C13_exact`, `C13_value`, `C13_depth3_loses`, `C13_dead`, `C14_counts`, `C14_textbook`, `C14_range`, `C14_plus_one`, `C14_minus_one`, `C14_order`, `C14_symmetric`, `C14_shape`, `C15_autocorrelation`, `C16_report`, `C16_no_observation`, `C16_zero_scale`, `C16_shape`, `C16_report_range`, `C17_report`, `C17_shape`, `C17_report_range`, `C17_report_grows`, `C18_bit`, `C18_bounded`, `C18_single_clamp`, `C18_negative_scale_resaturates`, `C19_exact`, `C19_value`, `C19_too_shallow`, `C20_balance`, `C20_conservation`, `C20_value`, `C21_silent`, `C21_not_silent`, `C22_resolved`, `C22_frozen`, `C22_mode`, `C23_monotone`, `C24_bit`, `C24_bits`, `C24_count`, `C24_exact`, `C24_needs_prob`, `C25_bit`, `C25_count`, `C25_exact`, `C26_error`, `C26_quantised`, `C26_real`, `C26_end_to_end`, `C26_end_to_end_unipolar`, `C27_bit`, `C27_window`, `C27_warmup`, `C27_static`, `C28_after_command`, `C28_no_command`, `C29_masked`, `C29_delay`, `C30_xor`, `C30_sign`, `C30_sign_in_range`, `C30_abs_value`, `C31_dominates`, `C31_nonneg`, `C31_identity`, `C31_zero_input`, `C32_sigmoid_uni2bi`, `C32_sigmoid_exact`, `C32_sigmoid_value`, `C32_hub_sigmoid`, `C32_tanh`, `C32_hub_relu`, `C32_agree`, `C33_quotient`, `C33_bits`, `C33_settled`, `C34_initial_calls`, `C34_fails`, `C34_built`, `C34_refused`, `C35_composition`, `C35_by_one`, `C35_self`, `C35_zero`, `C35_bits`, `C36_accepts`, `C36_bits`, `C36_dominates`, `C36_pairs`, `C36_count`, `C36_isolated`, `C36_alternating`, `C36_cordiv`, `C37_balance`, `C37_constants`, `C37_sequence_unused`, `C38_count`, `C38_card`, `C38_args`, `C39_round_trip`, `C40_round_trip_iff`, `C40_axes`, `C40_shape_inverse`, `C40_violated`, `C41_gradient`, `C41_representable`, `C41_nearest`, `C41_half_unit`, `C41_monotone_odd`, `C41_idempotent`, `C41_negative_width`, `C42_grid`, `C42_idempotent`, `C42_clip_error`, `C42_norm`, `C42_schedule`, `C42_errors`, `C43_inside`, `C43_first_inside`, `C43_returns_iff`, `C44_products`, `C44_range`, `C44_total`, `C44_bias_needs_value`, `C44_batch_change`, `C44_built`, `C45_runs`, `C45_lanes`, `C45_floor`, `C45_products`, `C45_value`, `C45_end_to_end`, `C45_silent`, `C45_other_scale`, `C45_refused`, `C46_table`, `C46_sobol`, `C46_both_temporal`, `C46_no_cycle`, `C46_widths_differ`, `C46_temporal_weight`, `C46_table_shape`, `C47_forward`, `C47_end_to_end`, `C47_zero_row`, `C47_odd`, `C48_forward`, `C48_error`, `C48_exceeds`, `C49_degree`, `C49_digits`, `C49_lossless`, `C49_error`, `C49_fpfp`, `C50_layer_operands`, `C50_fxpfxp`, `C50_limited`, `C50_fpfp`, `C50_mixed`, `C51_gradient`, `C51_unique`, `C51_needs`, `C52_positions`, `C52_size`, `C52_pipeline`, `C52_fxp`, `C52_fxp_error`, `C52_hub`, `C52_tlut`, `C52_tlut_exact`, `C52_fsu_counts`, `C52_fsu_end_to_end`, `C52_pair_padding`, `C52_pair`, `C53_padding`, `C53_value`, `C54_step`, `C54_recovers`, `C54_sequence`, `C54_hard`, `C54_gate`, `C54_soft`, `C54_hard_sequence`, `C55_grid`, `C55_legal`, `C55_sequence`, `C55_sequence_any`, `C55_error`, `C55_no_intwidth`, `C56_run`, `C56_bits`, `C56_refused`, `C56_gate`, `C56_product`, `C56_balance`, `C57_products`, `C57_race`, `C57_built`, `C58_shift_covers`, `C58_full`, `C58_quantile`, `C58_scale_unique`, `C58_zero`, `C58_unique`, `C59_value`, `C59_inputs`, `C59_refused`, `C60_clip`, `C60_unipolar_value`, `C60_bipolar_value`, `C60_sum`, `C61_static`, `C61_source`, `C61_stream`, `C61_linear`, `C61_linear_unipolar`, `C62_rates`, `C62_value`, `C62_hybrid`, `C62_sensitivity`, `C62_end_to_end`, `C63_skewed_sync`, `C63_sqrt`, `C64_uni2bi`, `C64_bi2uni`, `C64_bi2uni_wraps`, `C65_sign`, `C65_abs`, `C65_abs_count`, `C66_sequence`, `C66_permutation`, `C66_uni_bit`, `C66_bi_bit`, `C66_uni`, `C66_bi`, `C66_uni_exact`, `C66_second_period`, `C67_parallel_counters`, `C67_usadd8`, `C67_usadd16`, `C67_unsadd8`, `C67_unsadd16`, `C67_unsadd16_negative`, `C67_mac_uni`, `C67_mac_bi`, `C67_linear`, `C68_cordiv_agree`, `C68_cordiv_one`, `C68_divider`, `C68_cordiv_locks`, `C68_gdiv`, `C68_gsqrt`, `C68_skewed_sync_int`, `C68_bipolar_sqrt`, `C69_rounding`, `C69_add`, `C69_add_streams`, `C69_convert`, `C69_sync`, `C69_signabs`, `C69_convert_stuck`, `C70_unipolar`, `C70_bipolar`, `C70_agree`, `C70_grid`, `C70_double_rounding`, `C70_rawscale`, `C71_counters`, `C71_value`, `C71_exhausted`, `C71_exhausted_witness`, `C71_correlation`, `C71_correlation_error`, `C71_correlation_witness`, `C72_conv`, `C72_network`, `C72_quantised`, `C72_end_to_end`, `C72_relu`, `C72_relu_shallow`, `C72_hardsigmoid`, `C73_network`, `C73_quantised`, `C73_end_to_end`, `C74_lipschitz`, `C74_hybrid_sequence`, `C74_fxp_sequence`, `C74_keeps`, `C75_weight`, `C75_weight_conv`, `C75_tlut`, `C75_tlut_conv`, `C75_fxp`, `C75_runs`, `C75_hub`, `C75_zero_cycle`, `C75_cell`, `C75_cell_forward`, `C76_gdiv`, `C76_gsqrt`, `C76_in_stream`, `C76_in_stream_wrap`, `C76_in_stream_bipolar`, `C76_sqrt_is_odd`, `C76_sqrt_is_even`, `C76_sqrt_is_small`, `C76_sqrt_is_bipolar`, `C76_sqrt_o`, `C76_sqrt_o_bipolar`, `C76_sqrt_o_wrap`, `C76_div_bipolar`, `C77_gaines_uni`, `C77_gaines_bi`, `C77_gaines_uni_not_product`, `C77_gaines_bi_not_product`, `C77_deterministic_bit`, `C77_deterministic_uni`, `C77_deterministic_bi`, `C77_temporal_bit`, `C77_temporal_uni`, `C77_temporal_error`, `C77_temporal_reload`, `C77_temporal_bi_stuck`, `C78_apc_extremes`, `C78_mux_rng`, `C78_mux_rng_constant`, `C78_mux_rng_correlated`, `C78_dadd_bit`, `C78_dadd`, `C78_or`, `C78_apc`, `C78_apc_period`, `C78_apc16`, `C78_binary`, `C78_mac`, `C78_unsadd16_uni`, `C78_unsadd16_uni_wraps`, `C79_gaines_scaled`, `C79_gaines_scaled_dead`, `C79_gaines_nonscaled`, `C79_deterministic_scaled`, `C79_deterministic_nonscaled`, `C79_temporal_scaled_bit`, `C79_temporal_scaled_dead`, `C79_temporal_nonscaled`, `C79_umac_uni`, `C79_umac_bi`, `C80_halton_stratified`, `C80_halton2_stratified`, `C80_gray_step`, `C80_halton2`, `C80_halton`, `C80_halton_rate`, `C80_halton2_rate`, `C81_relu`, `C81_sqrt_stuck`, `C81_sqrt_zero`, `C81_gdiv`, `C81_gsqrt`, `C81_skewed_sync`, `C81_cordiv`, `C81_cordiv_agree`, `C81_iscbdiv_stuck`, `C81_sqrt_jk_count`, `C81_sqrt_jk_runs`, `C81_cordivall`, `C81_cordivall_wrap`, `C82_mean`, `C82_exp`, `C83_composition`, `C83_self`, `C83_by_unit`, `C83_units`, `C83_steady`, `C84_jk`, `C84_jk_unique`, `C84_jk_phase`, `C84_cordiv`, `C84_balance`, `C85_linear`, `C85_quantile`, `C85_conv`, `C85_zero_cycle`, `C86_gradient`, `C86_unique`, `C86_needs`, `C86_too_large`, `C87_conv_fixed`, `C87_conv_hybrid`, `C87_fixed_output`, `C87_hybrid_output`, `C87_fixed`, `C87_hybrid`, `C87_order`, `C88_shifts`, `C88_range`, `C88_shift_agree`, `C89_multiplier`, `C89_counter`, `C89_linear`, `C89_conv`, `C89_cell`, `C90_product`, `C90_fixed`, `C90_mixed`, `C90_float`, `C90_gradient`, `C90_conv_fixed`, `C90_conv_mixed`, `C90_conv_float`, `C91_legal`, `C91_error`, `C91_gate`, `C91_calls`, `C91_runs`, `C91_sequence`, `C91_fixed`, `C91_fixed_sequence`, `C91_fixed_needs`, `C92_adder`, `C92_linear`, `C92_conv`, `C92_scale`, `C92_conv_scale`, `C92_balance`, `C93_fixed`, `C93_hybrid`, `C93_lookup`, `C93_company`, `C93_float_rows`, `C93_swamped`, `C93_stream_counts`, `C93_stream_rows`, `C93_interference`, `C93_zero_cycle`, `C94_fixed`, `C94_hybrid`, `C94_lookup`, `C94_lookup_float`, `C94_company`, `C94_stream`, `C94_stream_counts`, `C94_unreached`, `C95_quantile`, `C95_scale`, `C95_rawscale`, `C95_fixed`, `C95_hybrid`, `C95_lookup_fixed`, `C95_lookup_mixed`, `C95_conv_fixed`, `C95_conv_hybrid`, `C95_conv_lookup_fixed`, `C95_conv_lookup_mixed`, `C96_range`, `C96_named`, `C96_stream`, `C96_widths`, `C96_source`, `C96_coarse`, `C96_loss`, `C96_sync`, `C96_bi2uni`, `C96_uni2bi`, `C96_signabs`, `C96_relu`, `C96_relu_swapped`, `C96_signabs_wrap`, `C96_unsigned_signabs`, `C96_unsigned_sync`, `C96_add`, `C96_add_loss`, `C96_counter`, `C96_counter_wrap`, `C97_sequences`, `C97_network`, `C97_same`, `C97_end_to_end`, `C97_images`, `C97_images_end_to_end`, `C98_cell`, `C98_hybrid`, `C98_end_to_end`, `C99_gap`, `C99_kernel`, `C99_odd`, `C99_exact`, `C99_repeats`, `C99_steady`, `C99_sources`, `C99_locked`, `C99_quarter`, `C100_bi2uni`, `C100_uni2bi`, `C100_signabs`, `C100_relu`, `C100_jkff`, `C100_mul`, `C100_add`, `C100_shiftreg`, `C100_mul_stream`, `C100_div`, `C100_sqrt`, `C100_element`, `C100_resized`, `C100_inherits`, `C101_jkff`, `C101_sqrt`, `C101_sqrt_count`, `C101_sqrt_low`, `C101_kernel`, `C101_div`, `C101_div_count`, `C101_mul`, `C101_mul_stream`, `C102_bi2uni`, `C102_uni2bi`, `C102_signabs`, `C102_relu`, `C102_jkff`, `C102_typed`, `C102_mul`, `C102_add`, `C102_add_width`, `C102_add_scale`, `C102_shiftreg`, `C102_mul_stream`, `C102_cordiv`, `C102_div`, `C102_sqrt`, `C102_sqrt_jk`, `C102_stability`, `C102_stability_forgets`, `C102_corr`, `C102_linear`, `C102_linear_differs`, `C102_fsu_linear`, `C102_fsu_conv`, `C102_fsu_conv_differs`, `C103_add`, `C103_bi2uni`, `C103_uni2bi`, `C103_relu`, `C103_sync`, `C103_mul`, `C103_mul_second`, `C103_mul_first_unbounded`, `C103_signabs_unbounded`, `C103_jkff_unbounded`, `C103_div_recovers`, `C103_div_unbounded`, `C103_linear`, `C103_linear_counts`, `C103_conv`, `C103_chain`, `C103_relu_counts`, `C103_relu_counts_needs_room`, `C103_chain_relu`, `C104_bi2uni`, `C104_uni2bi`, `C104_relu`, `C104_signabs`, `C104_jkff`, `C104_sync`, `C104_add`, `C104_jkff_int8_shared`, `C104_sync_second_shared`, `C104_cordiv`, `C104_div_unipolar`, `C104_div_bipolar`, `C104_mul_static`, `C104_mul_stream`, `C104_sqrt_emit`, `C104_sqrt_jk`, `C104_sqrt_div`, `C104_addresses`, `C104_progerror_copied`, `C104_stability`, `C104_progerror_shared`, `C104_bingen`, `C104_bsgen_shared`, `C104_shiftreg`, `C104_correlation`, `C105_outlier`, `C105_absolute`, `C105_relative`, `C105_relative_zero`, `C105_value_fails`, `C106_linear_pc`, `C106_linear_pc_weights`, `C106_linear`, `C106_linear_weights`, `C106_conv_pc`, `C106_conv_pc_weights`, `C106_conv`, `C106_conv_weights`, `C106_add`, `C106_hub_linear`, `C106_fxp_linear`, `C106_hub_conv`, `C106_fxp_conv`, `C106_tlut_linear`, `C106_tlut_conv`, `C106_mgu`, `C106_mgu_fxp`, `C106_fsu_mgu`, `C106_fsu_mgu_weights`, `C106_relu`, `C106_relu_inplace`, `C106_hub_linear_ext`, `C106_fxp_linear_ext`, `C106_hub_conv_ext`, `C106_fxp_conv_ext`, `C106_tlut_linear_ext`, `C106_tlut_conv_ext`, `C107_net`, `C107_alone`, `C107_weights`, `C108_hub_mgu`, `C108_present`, `C108_write`, `C108_write_shows`

## propext, Quot.sound (18)

`C07_nested`, `C28_bit`, `C29_index`, `C52_too_large`, `C54_batch`, `C64_jkff`, `C68_cordiv_bit`, `C68_sqrt_feed`, `C75_bias`, `C77_gaines_uni_bit`, `C77_gaines_bi_bit`, `C78_mux_rng_bit`, `C79_gaines_scaled_bit`, `C80_gray_injective`, `C81_data_buf`, `C100_sync`, `C100_constant`, `C102_sync`

## propext (7)

`C01_length_check_error`, `C81_gdiv_floor`, `C81_iscbdiv`, `C81_is_sqrt`, `C81_is_sqrt_select`, `C82_bit`, `C102_in_part`
