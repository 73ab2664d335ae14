# Axioms of every theorem in MANIFEST.json

Generated by `tools/axioms.py` from `#print axioms`.

## propext, Classical.choice, Quot.sound (652)

* `Verif.C01_u8_roundtrip`
* `Verif.C01_u8_value`
* `Verif.C01_u8_range`
* `Verif.C02_i16_roundtrip`
* `Verif.C02_i16_min`
* `Verif.C03_i24_roundtrip`
* `Verif.C04_nan`
* `Verif.C04_high`
* `Verif.C04_low`
* `Verif.C04_neg_inf`
* `Verif.C05_i24_range_violated`
* `Verif.C05_i24_range_partial`
* `Verif.C05_i24_range_iff_partial`
* `Verif.C06_monotone`
* `Verif.C07_u8`
* `Verif.C07_u8_full`
* `Verif.C07_i16`
* `Verif.C07_i24`
* `Verif.C08_u8`
* `Verif.C08_i16_from`
* `Verif.C08_i16_to`
* `Verif.C08_i16_roundtrip`
* `Verif.C08_i24_to`
* `Verif.C09_i24_bytes_violated`
* `Verif.C09_i24_bytes_partial`
* `Verif.C09_i24_bytes_negative`
* `Verif.C10_mono`
* `Verif.C10_mono_value`
* `Verif.C10_stereo`
* `Verif.C10_stereo_value`
* `Verif.C11_mono_sub_violated`
* `Verif.C11_mono_sub_is_add`
* `Verif.C11_mono_partial`
* `Verif.C12_stereo_violated`
* `Verif.C12_stereo_violated_values`
* `Verif.C12_stereo_partial`
* `Verif.C12_stereo_mul_assign_f32_partial`
* `Verif.C13_stereo_roundtrip_violated`
* `Verif.C13_stereo_roundtrip_violated_value`
* `Verif.C13_stereo_roundtrip_partial`
* `Verif.C14_conversions`
* `Verif.C14_into`
* `Verif.C14_equal_power`
* `Verif.C14_centred`
* `Verif.C15_pan_low`
* `Verif.C15_pan_high`
* `Verif.C15_pan_f32`
* `Verif.C16_pan_f64_violated`
* `Verif.C16_pan_values_partial`
* `Verif.C16_pan_left_violated`
* `Verif.C16_pan_right_violated`
* `Verif.C16_pan_centre_violated`
* `Verif.C16_pan_bounds_partial`
* `Verif.C17_pan_widen`
* `Verif.C18_clerp_range`
* `Verif.C18_clerp_inside`
* `Verif.C18_clerp_outside`
* `Verif.C19_endpoints`
* `Verif.C19_monotone`
* `Verif.C19_ieee_left`
* `Verif.C20_roundtrip_violated`
* `Verif.C20_value_partial`
* `Verif.C21_nearest`
* `Verif.C21_monotone`
* `Verif.C22_inverse`
* `Verif.C22_homomorphism`
* `Verif.C22_monotone`
* `Verif.C22_values`
* `Verif.C23_normalize`
* `Verif.C24_silent_violated`
* `Verif.C24_normalize_violated`
* `Verif.C24_normalize_partial`
* `Verif.C24_finite_partial`
* `Verif.C24_quiet_violated`
* `Verif.C24_constant_violated`
* `Verif.C25_mismatch`
* `Verif.C25_depth`
* `Verif.C25_iff`
* `Verif.C25_no_panic`
* `Verif.C26_interleaves`
* `Verif.C27_deinterleaves`
* `Verif.C28_no_panic_partial`
* `Verif.C29_write_read`
* `Verif.C29_read_write`
* `Verif.C30_clip_clamps`
* `Verif.C30_clip_first`
* `Verif.C30_codes`
* `Verif.C30_noop`
* `Verif.C31_read`
* `Verif.C31_sequence`
* `Verif.C31_exhausted`
* `Verif.C32_real`
* `Verif.C32_ieee`
* `Verif.C32_symm`
* `Verif.C32_refl`
* `Verif.C32_nan`
* `Verif.C33_sawtooth_range`
* `Verif.C33_bound_needed`
* `Verif.C34_sawtooth`
* `Verif.C35_triangle_range`
* `Verif.C36_get_frequency_violated`
* `Verif.C36_get_frequency_partial`
* `Verif.C37_square_pm1`
* `Verif.C37_square_both`
* `Verif.C38_square`
* `Verif.C39_sine`
* `Verif.C39_bound_needed`
* `Verif.C40_sine_partial`
* `Verif.C40_sine_glitch_violated`
* `Verif.C40_sine_violated`
* `Verif.C41_getters`
* `Verif.C41_sine_violated`
* `Verif.C41_sine_ieee_partial`
* `Verif.C43_block`
* `Verif.C43_noise`
* `Verif.C44_clone_triangle_violated`
* `Verif.C44_clone_triangle_partial`
* `Verif.C44_clone_triangle_f64_partial`
* `Verif.C45_verbatim_partial`
* `Verif.C45_stall_violated`
* `Verif.C45_values_violated`
* `Verif.C46_panic_violated`
* `Verif.C46_ieee_partial`
* `Verif.C46_exact`
* `Verif.C47_loop_partial`
* `Verif.C47_loop_violated`
* `Verif.C47_conditions_needed`
* `Verif.C47_ieee_partial`
* `Verif.C47_ieee_inner_partial`
* `Verif.C47_ieee_long_step_violated`
* `Verif.C48_interpolates`
* `Verif.C49_loop_end_zero_violated`
* `Verif.C49_loop_end_zero_partial`
* `Verif.C50_seamless_violated`
* `Verif.C50_seamless_partial`
* `Verif.C50_loop_partial`
* `Verif.C51_new`
* `Verif.C52_delay_length`
* `Verif.C53_clone_violated`
* `Verif.C53_clone_partial`
* `Verif.C54_echo`
* `Verif.C54_bounded`
* `Verif.C55_echo_violated`
* `Verif.C55_echo_partial`
* `Verif.C56_generic`
* `Verif.C57_generic_violated`
* `Verif.C57_generic_partial`
* `Verif.C58_delay`
* `Verif.C58_echo`
* `Verif.C58_generic`
* `Verif.C58_gain`
* `Verif.C58_lowpass`
* `Verif.C58_highpass`
* `Verif.C58_bandpass`
* `Verif.C58_new`
* `Verif.C59_unit_gain`
* `Verif.C59_prototype`
* `Verif.C59_settles`
* `Verif.C60_blocks_dc`
* `Verif.C60_prototype`
* `Verif.C60_settles`
* `Verif.C61_settled`
* `Verif.C61_settles`
* `Verif.C62_lowpass`
* `Verif.C62_highpass`
* `Verif.C63_lowpass`
* `Verif.C63_highpass`
* `Verif.C63_bandpass`
* `Verif.C63_bandpass_corners`
* `Verif.C64_corners`
* `Verif.C66_gain`
* `Verif.C66_output`
* `Verif.C67_levels`
* `Verif.C68_attack`
* `Verif.C68_decay`
* `Verif.C68_decay_flat`
* `Verif.C68_release`
* `Verif.C69_violated`
* `Verif.C69_partial`
* `Verif.C70_decay_violated`
* `Verif.C70_release_violated`
* `Verif.C70_partial`
* `Verif.C71_nonneg_violated`
* `Verif.C71_nonneg_partial`
* `Verif.C71_peak`
* `Verif.C71_tracks`
* `Verif.C72_envelope_generic`
* `Verif.C72_adsr`
* `Verif.C76_process`
* `Verif.C76_run`
* `Verif.C76_built`
* `Verif.C79_gain`
* `Verif.C80_modifiers`
* `Verif.C80_all_shared`
* `Verif.C80_clone`
* `Verif.C81_violated`
* `Verif.C81_partial`
* `Verif.C82_order`
* `Verif.C82_terminates`
* `Verif.C83_violated_silent`
* `Verif.C83_violated_mix`
* `Verif.C83_sources_partial`
* `Verif.C83_forest_partial`
* `Verif.C83_acyclic_partial`
* `Verif.C83_layers_partial`
* `Verif.C84_violated_delay`
* `Verif.C84_partial`
* `Verif.C84_acyclic_partial`
* `Verif.C84_layers_partial`
* `Verif.C85_process`
* `Verif.C86_process`
* `Verif.C86_calls`
* `Verif.C87_partial`
* `Verif.C87_violated`
* `Verif.C88_twice`
* `Verif.C88_edges`
* `Verif.C88_inverse`
* `Verif.C88_panics`
* `Verif.C89_violated`
* `Verif.C89_violated_noop`
* `Verif.C89_partial`
* `Verif.C90_ids`
* `Verif.C90_lookup`
* `Verif.C91_partial`
* `Verif.C91_violated`
* `Verif.C92_violated_twice`
* `Verif.C92_partial`
* `Verif.C92_time_partial`
* `Verif.C92_violated_time`
* `Verif.C92_mono_violated`
* `Verif.C92_stereo_violated`
* `Verif.C93_fields`
* `Verif.C93_empty`
* `Verif.C93_injective`
* `Verif.C93_program`
* `Verif.C94_partial`
* `Verif.C94_violated`
* `Verif.C95_triangle`
* `Verif.C96_lowpass_partial`
* `Verif.C96_highpass_partial`
* `Verif.C96_lowpass_damped_partial`
* `Verif.C96_highpass_damped_partial`
* `Verif.C96_highpass_violated`
* `Verif.C96_lowpass_violated`
* `Verif.C97_lowpass`
* `Verif.C97_highpass`
* `Verif.C98_sawtooth_tune`
* `Verif.C99_triangle_tune`
* `Verif.C100_square_tune`
* `Verif.C101_sine_tune`
* `Verif.C101_no_drift`
* `Verif.C101_periodic`
* `Verif.C102_echo_bounded`
* `Verif.C102_bound_needed`
* `Verif.C103_envelope_f32`
* `Verif.C104_clerp_f64`
* `Verif.C104_overshoot`
* `Verif.C105_normalize_peak`
* `Verif.C106_equal_power`
* `Verif.C106_roundtrip`
* `Verif.C107_drift_partial`
* `Verif.C107_pitch_violated`
* `Verif.C107_onset_violated`
* `Verif.C108_glitch_violated`
* `Verif.C108_output_partial`
* `Verif.C109_attack_decay_partial`
* `Verif.C109_release_partial`
* `Verif.C109_violated`
* `Verif.C110_bounded`
* `Verif.C110_blocks`
* `Verif.C111_getters`
* `Verif.C111_sine`
* `Verif.C111_triangle`
* `Verif.C112_corners`
* `Verif.C112_usable`
* `Verif.C113_dc_violated`
* `Verif.C113_dc_partial`
* `Verif.C115_loads`
* `Verif.C115_pitch`
* `Verif.C115_verbatim`
* `Verif.C115_written`
* `Verif.C116_db_to_linear`
* `Verif.C116_linear_to_db`
* `Verif.C116_round_trip`
* `Verif.C117_pan`
* `Verif.C117_pan_f32`
* `Verif.C118_lowpass_partial`
* `Verif.C118_highpass_partial`
* `Verif.C118_lowpass_settles_partial`
* `Verif.C118_highpass_settles_partial`
* `Verif.C118_lowpass_violated`
* `Verif.C118_highpass_violated`
* `Verif.C118_lowpass_bound_partial`
* `Verif.C118_highpass_bound_partial`
* `Verif.C118_table_partial`
* `Verif.C119_step`
* `Verif.C119_run`
* `Verif.C119_built_partial`
* `Verif.C119_violated`
* `Verif.C120_process`
* `Verif.C120_new`
* `Verif.C120_exact`
* `Verif.C121_loops`
* `Verif.C121_verbatim`
* `Verif.C122_voice`
* `Verif.C122_generator_block`
* `Verif.C122_modifier_block`
* `Verif.C122_set_frequency`
* `Verif.C122_generators`
* `Verif.C122_sine`
* `Verif.C122_modifiers`
* `Verif.C122_new`
* `Verif.C122_synth`
* `Verif.C123_lowpass`
* `Verif.C123_highpass`
* `Verif.C123_bandpass`
* `Verif.C124_butterworth`
* `Verif.C124_never_amplifies`
* `Verif.C124_resonance`
* `Verif.C124_monotone`
* `Verif.C124_peak`
* `Verif.C124_two_sided`
* `Verif.C124_butterworth_partial`
* `Verif.C124_cutoff_partial`
* `Verif.C124_rolloff_partial`
* `Verif.C124_cutoff_violated`
* `Verif.C124_highpass_violated`
* `Verif.C124_slope_violated`
* `Verif.C125_peak_bound`
* `Verif.C125_peak_partial`
* `Verif.C125_corners_partial`
* `Verif.C125_rolloff_partial`
* `Verif.C125_slope_violated`
* `Verif.C125_unity_violated`
* `Verif.C126_generic_bounded`
* `Verif.C126_generic_settles`
* `Verif.C126_generic`
* `Verif.C126_echo`
* `Verif.C126_echo_needed`
* `Verif.C126_memoryless`
* `Verif.C126_filters_settle`
* `Verif.C127_block`
* `Verif.C127_series`
* `Verif.C127_sound`
* `Verif.C127_sum`
* `Verif.C128_lowpass_partial`
* `Verif.C128_highpass_partial`
* `Verif.C128_sine_lowpass_partial`
* `Verif.C128_sine_highpass_partial`
* `Verif.C128_lowpass_violated`
* `Verif.C128_highpass_violated`
* `Verif.C128_lowpass_cutoff_partial`
* `Verif.C128_highpass_cutoff_partial`
* `Verif.C128_sine_cutoff_partial`
* `Verif.C129_gain`
* `Verif.C129_delay`
* `Verif.C129_echo`
* `Verif.C129_lowpass`
* `Verif.C129_highpass`
* `Verif.C129_generic`
* `Verif.C129_block`
* `Verif.C129_sum`
* `Verif.C129_series`
* `Verif.C129_sound`
* `Verif.C129_level`
* `Verif.C129_sine`
* `Verif.C130_owners`
* `Verif.C130_control_partial`
* `Verif.C130_regained_partial`
* `Verif.C130_violated`
* `Verif.C130_playable`
* `Verif.C130_add`
* `Verif.C130_clone_drop`
* `Verif.C130_clone_ids`
* `Verif.C132_position_partial`
* `Verif.C132_end`
* `Verif.C132_backwards_violated`
* `Verif.C132_no_click`
* `Verif.C132_drift_f32_partial`
* `Verif.C132_output_f32_partial`
* `Verif.C133_code16`
* `Verif.C133_code24`
* `Verif.C133_code8`
* `Verif.C133_unity`
* `Verif.C133_effects`
* `Verif.C133_file`
* `Verif.C133_file8`
* `Verif.C133_echo_file`
* `Verif.C134_corners`
* `Verif.C134_new`
* `Verif.C134_tracks`
* `Verif.C134_level`
* `Verif.C134_sine`
* `Verif.C135_lowpass_modulated_partial`
* `Verif.C135_highpass_modulated_partial`
* `Verif.C135_lowpass_modulated_f32_partial`
* `Verif.C135_highpass_modulated_f32_partial`
* `Verif.C135_lowpass_partial`
* `Verif.C135_highpass_partial`
* `Verif.C135_bandpass_partial`
* `Verif.C135_bandpass_modulated_partial`
* `Verif.C135_bandpass_violated`
* `Verif.C135_lowpass_violated`
* `Verif.C135_jump_violated`
* `Verif.C135_highpass_violated`
* `Verif.C136_violated`
* `Verif.C136_partial`
* `Verif.C137_gain`
* `Verif.C137_output`
* `Verif.C138_step`
* `Verif.C138_rises_violated`
* `Verif.C138_rises_partial`
* `Verif.C138_settles`
* `Verif.C138_settles_f32`
* `Verif.C139_lowpass_violated`
* `Verif.C139_highpass_violated`
* `Verif.C139_bandpass_violated`
* `Verif.C139_envelope_violated`
* `Verif.C139_echo_violated`
* `Verif.C139_recover_partial`
* `Verif.C140_generic`
* `Verif.C140_echo_violated`
* `Verif.C140_echo_partial`
* `Verif.C140_echo_fades_partial`
* `Verif.C140_envelope_violated`
* `Verif.C140_envelope_coef`
* `Verif.C140_bandpass_violated`
* `Verif.C140_lowpass_violated`
* `Verif.C140_highpass_violated`
* `Verif.C141_wide_violated`
* `Verif.C141_zero_centre_violated`
* `Verif.C141_zero_corner_violated`
* `Verif.C141_partial`
* `Verif.C142_flow`
* `Verif.C142_standard`
* `Verif.C142_diagram`
* `Verif.C142_loop`
* `Verif.C143_plays`
* `Verif.C143_superposition`
* `Verif.C143_shift`
* `Verif.C144_convolution`
* `Verif.C144_determined`
* `Verif.C144_exchange`
* `Verif.C144_chain`
* `Verif.C144_sound`
* `Verif.C144_block`
* `Verif.C145_smooth`
* `Verif.C145_tone`
* `Verif.C145_float`
* `Verif.C145_float_tone`
* `Verif.C146_sawtooth_partial`
* `Verif.C146_square_partial`
* `Verif.C146_triangle`
* `Verif.C146_sine`
* `Verif.C146_sawtooth_violated`
* `Verif.C146_square_violated`
* `Verif.C147_network`
* `Verif.C147_gain`
* `Verif.C147_loop`
* `Verif.C148_sawtooth`
* `Verif.C148_sawtooth_ieee`
* `Verif.C148_sine`
* `Verif.C148_sine_ieee`
* `Verif.C148_triangle_from`
* `Verif.C148_triangle_partial`
* `Verif.C148_triangle_violated`
* `Verif.C148_triangle_ieee_violated`
* `Verif.C148_square_partial`
* `Verif.C148_square_violated`
* `Verif.C149_effect`
* `Verif.C149_unique`
* `Verif.C149_network`
* `Verif.C149_series`
* `Verif.C149_parallel`
* `Verif.C149_feedback`
* `Verif.C149_echo`
* `Verif.C150_sawtooth`
* `Verif.C150_sawtooth_fourier`
* `Verif.C150_square_partial`
* `Verif.C150_square_violated`
* `Verif.C150_triangle_partial`
* `Verif.C150_triangle_violated`
* `Verif.C150_sine`
* `Verif.C150_triangle_f32_partial`
* `Verif.C150_sine_f32_partial`
* `Verif.C150_square_f32_partial`
* `Verif.C150_sawtooth_f32_partial`
* `Verif.C151_gain_exists`
* `Verif.C151_energy`
* `Verif.C151_energy_sharp`
* `Verif.C151_energy_iff`
* `Verif.C151_peak`
* `Verif.C151_filters`
* `Verif.C151_resonance_needed`
* `Verif.C151_bandpass`
* `Verif.C151_echo`
* `Verif.C151_generic`
* `Verif.C151_memoryless`
* `Verif.C151_block`
* `Verif.C151_series`
* `Verif.C151_sound`
* `Verif.C151_sum`
* `Verif.C151_f32`
* `Verif.C152_network`
* `Verif.C152_feedback`
* `Verif.C152_adsr`
* `Verif.C152_needed`
* `Verif.C153_white`
* `Verif.C153_effect`
* `Verif.C153_effect_f32`
* `Verif.C154_ring`
* `Verif.C154_square`
* `Verif.C154_two_sines`
* `Verif.C155_sawtooth`
* `Verif.C155_triangle`
* `Verif.C155_sine`
* `Verif.C155_sawtooth_f32`
* `Verif.C155_triangle_f32`
* `Verif.C155_sine_f32`
* `Verif.C155_window`
* `Verif.C155_square`
* `Verif.C155_sine_nyquist`
* `Verif.C156_triangle_partial`
* `Verif.C156_sawtooth_violated`
* `Verif.C156_sawtooth_return_violated`
* `Verif.C156_f32_violated`
* `Verif.C156_triangle_violated`
* `Verif.C156_square_violated`
* `Verif.C156_sine_violated`
* `Verif.C156_sine_panic_violated`
* `Verif.C156_sine_f32_violated`
* `Verif.C157_scale`
* `Verif.C157_between`
* `Verif.C157_louder_violated`
* `Verif.C157_louder_partial`
* `Verif.C157_average`
* `Verif.C158_allpass`
* `Verif.C158_linear_phase`
* `Verif.C158_undo`
* `Verif.C158_undo_echo`
* `Verif.C158_undo_violated`
* `Verif.C158_undo_partial`
* `Verif.C159_write_partial`
* `Verif.C159_quiet_violated`
* `Verif.C159_silence_violated`
* `Verif.C159_peak_partial`
* `Verif.C160_up_u8`
* `Verif.C160_up_i16`
* `Verif.C160_range_violated`
* `Verif.C160_range_partial`
* `Verif.C160_down_i16`
* `Verif.C160_down_i24`
* `Verif.C160_files`
* `Verif.C161_shape`
* `Verif.C161_twice`
* `Verif.C161_twice_violated`
* `Verif.C161_twice_partial`
* `Verif.C162_echo`
* `Verif.C162_taps`
* `Verif.C162_hum`
* `Verif.C162_average`
* `Verif.C162_offset`
* `Verif.C162_constant`
* `Verif.C163_click_violated`
* `Verif.C163_smooth_partial`
* `Verif.C163_mirror_violated`
* `Verif.C163_mirror_partial`
* `Verif.C163_power_violated`
* `Verif.C163_power_partial`
* `Verif.C163_click_f64_violated`
* `Verif.C163_smooth_f64_partial`
* `Verif.C164_sound`
* `Verif.C164_level`
* `Verif.C164_never_amplifies`
* `Verif.C164_partial`
* `Verif.C164_violated`
* `Verif.C164_lost_violated`
* `Verif.C165_partial`
* `Verif.C165_standard`
* `Verif.C165_violated`
* `Verif.C166_play`
* `Verif.C166_steps`
* `Verif.C166_double`
* `Verif.C167_cost`
* `Verif.C167_built`
* `Verif.C167_effects`
* `Verif.C168_partial`
* `Verif.C168_violated`
* `Verif.C168_rounding_violated`
* `Verif.C169_effects`
* `Verif.C169_settings`
* `Verif.C169_envelope`
* `Verif.C169_tracks`
* `Verif.C169_encoded`
* `Verif.C169_block`
* `Verif.C169_network`
* `Verif.C169_chain`
* `Verif.C169_null`
* `Verif.C169_fresh`
* `Verif.C170_partial`
* `Verif.C170_violated`
* `Verif.C171_chord`
* `Verif.C171_chord_f32`
* `Verif.C171_pair`
* `Verif.C172_tones`
* `Verif.C172_level`
* `Verif.C172_level_f32`
* `Verif.C173_network`
* `Verif.C173_generator`
* `Verif.C173_modifier`
* `Verif.C173_effects`
* `Verif.C173_sum`
* `Verif.C173_voices`
* `Verif.C174_chain`
* `Verif.C174_exact`
* `Verif.C174_f32`
* `Verif.C175_local`
* `Verif.C175_together`
* `Verif.C175_plays`
* `Verif.C176_meter`
* `Verif.C176_meter_f32`
* `Verif.C176_voices`
* `Verif.C177_sine`
* `Verif.C177_sawtooth`
* `Verif.C177_triangle`
* `Verif.C177_square`
* `Verif.C177_oscillators_exact`
* `Verif.C177_filters`
* `Verif.C177_corners_violated`
* `Verif.C177_gains`
* `Verif.C177_corners_partial`
* `Verif.C178_channel`
* `Verif.C178_corners_violated`
* `Verif.C178_corners_partial`
* `Verif.C179_click`
* `Verif.C179_zero_volume_partial`
* `Verif.C179_zero_volume_violated`
* `Verif.C180_course`
* `Verif.C180_stereo`
* `Verif.C180_linear`
* `Verif.C180_order`
* `Verif.C181_effects`
* `Verif.C181_network`
* `Verif.C181_chain`
* `Verif.C181_nan_violated`
* `Verif.C181_filters_partial`
* `Verif.C181_delays_partial`
* `Verif.C182_write`
* `Verif.C182_cut_in_frame`
* `Verif.C183_rate_exact`
* `Verif.C183_octaves_partial`
* `Verif.C183_violated`

## propext, Quot.sound (64)

* `Verif.C10_error`
* `Verif.C10_into_length`
* `Verif.C10_requantise`
* `Verif.C12_from`
* `Verif.C25_no_channels`
* `Verif.C27_other`
* `Verif.C28_no_panic_violated`
* `Verif.C28_zero_channels_partial`
* `Verif.C42_next_sample`
* `Verif.C42_same_frequency`
* `Verif.C42_same_frequency_sine`
* `Verif.C44_clone`
* `Verif.C44_clone_sine`
* `Verif.C46_silence`
* `Verif.C49_swapped_violated`
* `Verif.C51_delay`
* `Verif.C51_zero`
* `Verif.C65_history`
* `Verif.C65_coefficients`
* `Verif.C67_phases`
* `Verif.C67_stationary`
* `Verif.C71_magnitude`
* `Verif.C72_lowpass_highpass`
* `Verif.C72_bandpass`
* `Verif.C73_memoryless`
* `Verif.C74_process`
* `Verif.C74_returns`
* `Verif.C74_shared`
* `Verif.C75_steps`
* `Verif.C75_from_generator`
* `Verif.C75_from_modifier`
* `Verif.C75_default`
* `Verif.C77_simple`
* `Verif.C77_simple_toggle`
* `Verif.C77_complex`
* `Verif.C77_complex_toggle`
* `Verif.C78_simple`
* `Verif.C78_complex`
* `Verif.C79_trait`
* `Verif.C79_trait_play`
* `Verif.C80_generator`
* `Verif.C82_new`
* `Verif.C83_violated`
* `Verif.C84_violated`
* `Verif.C85_standard_block`
* `Verif.C92_violated_shared`
* `Verif.C114_clone`
* `Verif.C114_clone_wav`
* `Verif.C119_standard`
* `Verif.C131_generator`
* `Verif.C131_modifier`
* `Verif.C131_unshare`
* `Verif.C131_share`
* `Verif.C132_access`
* `Verif.C140_delay`
* `Verif.C178_lowpass_highpass`
* `Verif.C178_bandpass`
* `Verif.C178_oscillators`
* `Verif.C179_volume`
* `Verif.C179_input`
* `Verif.C180_release_again`
* `Verif.C180_release_after_end`
* `Verif.C182_read`
* `Verif.C183_stride`

## none (6)

* `Verif.C17_mono`
* `Verif.C67_release`
* `Verif.C82_addBlock`
* `Verif.C120_set_gain`
* `Verif.C131_pending`
* `Verif.C178_gains`

## propext (2)

* `Verif.C79_simple`
* `Verif.C79_complex`
