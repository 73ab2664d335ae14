{
 "claims": [
  {
   "property": "C01",
   "status": "proved",
   "theorems": [
    "Verif.C01_u8_roundtrip",
    "Verif.C01_u8_value",
    "Verif.C01_u8_range"
   ],
   "note": "IEEE binary32."
  },
  {
   "property": "C02",
   "status": "proved",
   "theorems": [
    "Verif.C02_i16_roundtrip",
    "Verif.C02_i16_min"
   ],
   "note": "IEEE binary32."
  },
  {
   "property": "C03",
   "status": "proved",
   "theorems": [
    "Verif.C03_i24_roundtrip"
   ],
   "note": "IEEE binary32."
  },
  {
   "property": "C04",
   "status": "proved",
   "theorems": [
    "Verif.C04_nan",
    "Verif.C04_high",
    "Verif.C04_low",
    "Verif.C04_neg_inf"
   ],
   "note": "IEEE binary32, all values including NaN, infinities and signed zeros."
  },
  {
   "property": "C05",
   "status": "partial",
   "theorems": [
    "Verif.C05_i24_range_violated",
    "Verif.C05_i24_range_partial",
    "Verif.C05_i24_range_iff_partial"
   ],
   "note": "The code violates this: sample_to_i24(2.0) = 16777214. Proved: the bound for samples in [-1,1]; and the exact set, C05_i24_range_iff_partial: the code is in range iff the sample is NaN or -(1+2^-23) <= s <= 1; missing, because false, are the samples outside."
  },
  {
   "property": "C06",
   "status": "proved",
   "theorems": [
    "Verif.C06_monotone"
   ],
   "note": "IEEE binary32."
  },
  {
   "property": "C07",
   "status": "proved",
   "theorems": [
    "Verif.C07_u8",
    "Verif.C07_u8_full",
    "Verif.C07_i16",
    "Verif.C07_i24"
   ],
   "note": "IEEE binary32. Explicit constants: u8 1/256 + 2^-24 for s <= 127/128 and one step 1/128 on the whole of [-1,1]; i16 (1/2 + 2^-10)/32767 + 2^-25; i24 (1/2 + 1/4)/8388607 + 2^-25."
  },
  {
   "property": "C08",
   "status": "proved",
   "theorems": [
    "Verif.C08_u8",
    "Verif.C08_i16_from",
    "Verif.C08_i16_to",
    "Verif.C08_i16_roundtrip",
    "Verif.C08_i24_to"
   ],
   "note": "leValue is a specification of little-endian two's complement written apart from the model."
  },
  {
   "property": "C09",
   "status": "partial",
   "theorems": [
    "Verif.C09_i24_bytes_violated",
    "Verif.C09_i24_bytes_partial",
    "Verif.C09_i24_bytes_negative"
   ],
   "note": "The code violates this: the top byte is filled with 0 instead of the sign. Proved: correct iff the top bit is clear; negative values decode to something >= 1."
  },
  {
   "property": "C10",
   "status": "proved",
   "theorems": [
    "Verif.C10_mono",
    "Verif.C10_mono_value",
    "Verif.C10_stereo",
    "Verif.C10_stereo_value",
    "Verif.C10_error",
    "Verif.C10_into_length",
    "Verif.C10_requantise"
   ],
   "note": "IEEE binary32; error text of the failing conversions included."
  },
  {
   "property": "C11",
   "status": "partial",
   "theorems": [
    "Verif.C11_mono_sub_violated",
    "Verif.C11_mono_sub_is_add",
    "Verif.C11_mono_partial"
   ],
   "note": "The code violates this: Sub for Mono adds. Proved: -= subtracts, every other operator is the channel operation and agrees with its assigning form; missing is '-'."
  },
  {
   "property": "C12",
   "status": "partial",
   "theorems": [
    "Verif.C12_from",
    "Verif.C12_stereo_violated",
    "Verif.C12_stereo_violated_values",
    "Verif.C12_stereo_partial",
    "Verif.C12_stereo_mul_assign_f32_partial"
   ],
   "note": "The code violates this for *= by an f64: the factor is narrowed before multiplying. Proved: all operators channelwise, f32 factors agree for every value; missing is f64 factors that are not f32 values."
  },
  {
   "property": "C13",
   "status": "partial",
   "theorems": [
    "Verif.C13_stereo_roundtrip_violated",
    "Verif.C13_stereo_roundtrip_violated_value",
    "Verif.C13_stereo_roundtrip_partial"
   ],
   "note": "The code violates this: from_sample then into_sample doubles."
  },
  {
   "property": "C14",
   "status": "proved",
   "theorems": [
    "Verif.C14_conversions",
    "Verif.C14_into",
    "Verif.C14_equal_power",
    "Verif.C14_centred"
   ],
   "note": "Exact real arithmetic for equal power; the equality of the two channels holds in any arithmetic."
  },
  {
   "property": "C15",
   "status": "proved",
   "theorems": [
    "Verif.C15_pan_low",
    "Verif.C15_pan_high",
    "Verif.C15_pan_f32"
   ],
   "note": "IEEE, any math library."
  },
  {
   "property": "C16",
   "status": "partial",
   "theorems": [
    "Verif.C16_pan_f64_violated",
    "Verif.C16_pan_values_partial",
    "Verif.C16_pan_left_violated",
    "Verif.C16_pan_right_violated",
    "Verif.C16_pan_centre_violated",
    "Verif.C16_pan_bounds_partial"
   ],
   "note": "The code violates this: full left is louder on the right, full right is louder on the left and the centre is 117 dB out of balance, in exact arithmetic and in f64. Proved: the levels actually produced, and that panning never amplifies (exact arithmetic; in floating point see C117)."
  },
  {
   "property": "C17",
   "status": "proved",
   "theorems": [
    "Verif.C17_pan_widen",
    "Verif.C17_mono"
   ],
   "note": "IEEE, any math library."
  },
  {
   "property": "C18",
   "status": "proved",
   "theorems": [
    "Verif.C18_clerp_range",
    "Verif.C18_clerp_inside",
    "Verif.C18_clerp_outside"
   ],
   "note": "Exact real arithmetic."
  },
  {
   "property": "C19",
   "status": "proved",
   "theorems": [
    "Verif.C19_endpoints",
    "Verif.C19_monotone",
    "Verif.C19_ieee_left"
   ],
   "note": "Exact real arithmetic; the left endpoint also in IEEE."
  },
  {
   "property": "C20",
   "status": "partial",
   "theorems": [
    "Verif.C20_roundtrip_violated",
    "Verif.C20_value_partial"
   ],
   "note": "The code violates this: samples_to_seconds multiplies by the sample rate. from_secs_f64 of the standard library is a parameter specified by FromSecsSpec (shown inhabited)."
  },
  {
   "property": "C21",
   "status": "proved",
   "theorems": [
    "Verif.C21_nearest",
    "Verif.C21_monotone"
   ],
   "note": "IEEE binary64, durations below 2^30 s for the error bound, all durations for monotonicity."
  },
  {
   "property": "C22",
   "status": "proved",
   "theorems": [
    "Verif.C22_inverse",
    "Verif.C22_homomorphism",
    "Verif.C22_monotone",
    "Verif.C22_values"
   ],
   "note": "Exact real arithmetic."
  },
  {
   "property": "C23",
   "status": "proved",
   "theorems": [
    "Verif.C23_normalize"
   ],
   "note": "Exact real arithmetic."
  },
  {
   "property": "C24",
   "status": "partial",
   "theorems": [
    "Verif.C24_silent_violated",
    "Verif.C24_normalize_violated",
    "Verif.C24_normalize_partial",
    "Verif.C24_finite_partial",
    "Verif.C24_quiet_violated",
    "Verif.C24_constant_violated"
   ],
   "note": "The code violates this: silent and other constant tracks turn into NaN (or full-scale), and differences near the denormal range overflow to infinity. Proved (IEEE, tracks of any length below 2^64): finite output when two samples differ by at least 2^-38 with |s| <= 1, and for samples up to 2^100 differing by at least 2^j when the gain is at most 2^(j+126)."
  },
  {
   "property": "C25",
   "status": "proved",
   "theorems": [
    "Verif.C25_no_channels",
    "Verif.C25_mismatch",
    "Verif.C25_depth",
    "Verif.C25_iff",
    "Verif.C25_no_panic"
   ],
   "note": "The wav writer is a parameter."
  },
  {
   "property": "C26",
   "status": "proved",
   "theorems": [
    "Verif.C26_interleaves"
   ],
   "note": "The wav writer is a parameter."
  },
  {
   "property": "C27",
   "status": "proved",
   "theorems": [
    "Verif.C27_deinterleaves",
    "Verif.C27_other"
   ],
   "note": "The wav reader is a parameter: the theorem quantifies over what it may return."
  },
  {
   "property": "C28",
   "status": "partial",
   "theorems": [
    "Verif.C28_no_panic_violated",
    "Verif.C28_no_panic_partial",
    "Verif.C28_zero_channels_partial"
   ],
   "note": "The code violates this: a header with zero channels and data panics. Proved: no panic otherwise."
  },
  {
   "property": "C29",
   "status": "proved",
   "theorems": [
    "Verif.C29_write_read",
    "Verif.C29_read_write"
   ],
   "note": "Any sample codec with decode-encode identities proved for u8, i16, i24 in C01-C03."
  },
  {
   "property": "C30",
   "status": "proved",
   "theorems": [
    "Verif.C30_clip_clamps",
    "Verif.C30_clip_first",
    "Verif.C30_codes",
    "Verif.C30_noop"
   ],
   "note": "IEEE binary32."
  },
  {
   "property": "C31",
   "status": "proved",
   "theorems": [
    "Verif.C31_read",
    "Verif.C31_sequence",
    "Verif.C31_exhausted"
   ],
   "note": ""
  },
  {
   "property": "C32",
   "status": "proved",
   "theorems": [
    "Verif.C32_real",
    "Verif.C32_ieee",
    "Verif.C32_symm",
    "Verif.C32_refl",
    "Verif.C32_nan"
   ],
   "note": "Exact reals, IEEE finite values and NaN."
  },
  {
   "property": "C33",
   "status": "proved",
   "theorems": [
    "Verif.C33_sawtooth_range",
    "Verif.C33_bound_needed"
   ],
   "note": "IEEE, all histories with frequencies in [0,48000]; the frequency bound is shown necessary."
  },
  {
   "property": "C34",
   "status": "proved",
   "theorems": [
    "Verif.C34_sawtooth"
   ],
   "note": "Exact real arithmetic."
  },
  {
   "property": "C35",
   "status": "proved",
   "theorems": [
    "Verif.C35_triangle_range"
   ],
   "note": "IEEE, all histories."
  },
  {
   "property": "C36",
   "status": "partial",
   "theorems": [
    "Verif.C36_get_frequency_violated",
    "Verif.C36_get_frequency_partial"
   ],
   "note": "The code violates this: after one sample at 24000 Hz the getter returns -24000. Proved (exact arithmetic): the absolute value is right; missing is the sign while the wave descends."
  },
  {
   "property": "C37",
   "status": "proved",
   "theorems": [
    "Verif.C37_square_pm1",
    "Verif.C37_square_both"
   ],
   "note": "IEEE, all histories."
  },
  {
   "property": "C38",
   "status": "proved",
   "theorems": [
    "Verif.C38_square"
   ],
   "note": "Exact real arithmetic."
  },
  {
   "property": "C39",
   "status": "proved",
   "theorems": [
    "Verif.C39_sine",
    "Verif.C39_bound_needed"
   ],
   "note": "IEEE; the math library's sin is assumed to map the table arguments into [-1,1]."
  },
  {
   "property": "C40",
   "status": "partial",
   "theorems": [
    "Verif.C40_sine_partial",
    "Verif.C40_sine_glitch_violated",
    "Verif.C40_sine_violated"
   ],
   "note": "The code violates this in the last table step, where the output is 0. Proved (exact arithmetic): the interpolation bound outside that step, and 2*pi/4800 everywhere."
  },
  {
   "property": "C41",
   "status": "partial",
   "theorems": [
    "Verif.C41_getters",
    "Verif.C41_sine_violated",
    "Verif.C41_sine_ieee_partial"
   ],
   "note": "Exact arithmetic for all generators. In IEEE the Sine getter is not bit-exact (20.3 Hz); proved exact for frequencies of at most 52 significant bits; for all other frequencies and generators C111 bounds the error."
  },
  {
   "property": "C42",
   "status": "proved",
   "theorems": [
    "Verif.C42_next_sample",
    "Verif.C42_same_frequency",
    "Verif.C42_same_frequency_sine"
   ],
   "note": "Any arithmetic, hence IEEE."
  },
  {
   "property": "C43",
   "status": "proved",
   "theorems": [
    "Verif.C43_block",
    "Verif.C43_noise"
   ],
   "note": "IEEE; the random source is a parameter delivering multiples of 2^-24 in [0,1)."
  },
  {
   "property": "C44",
   "status": "partial",
   "theorems": [
    "Verif.C44_clone",
    "Verif.C44_clone_sine",
    "Verif.C44_clone_triangle_violated",
    "Verif.C44_clone_triangle_partial",
    "Verif.C44_clone_triangle_f64_partial"
   ],
   "note": "Any arithmetic for Sawtooth, Square, Sine. Violated by Triangle, whose clone may run downwards; proved in exact arithmetic and in IEEE arithmetic (any f64 frequencies, histories with set_frequency): it plays the fresh wave bit for bit or its negative."
  },
  {
   "property": "C45",
   "status": "partial",
   "theorems": [
    "Verif.C45_verbatim_partial",
    "Verif.C45_stall_violated",
    "Verif.C45_values_violated"
   ],
   "note": "The code violates this: the f32 position stalls at 2^24 samples, and far-apart neighbours give NaN. Proved (IEEE): bit-exact playback then silence for tracks up to 2^24 samples whose neighbouring differences are finite; missing is longer tracks, infinite/NaN samples, and -0.0 (read back as +0.0)."
  },
  {
   "property": "C46",
   "status": "partial",
   "theorems": [
    "Verif.C46_silence",
    "Verif.C46_panic_violated",
    "Verif.C46_ieee_partial",
    "Verif.C46_exact"
   ],
   "note": "The code violates this in IEEE arithmetic: a two-sample track at speed 1-2^-24 panics with an index error. Proved: the whole property in exact arithmetic; permanent silence in any arithmetic; in IEEE, for every state with a track up to 2^24 samples, that this rounding of ind+1 is the only way to panic."
  },
  {
   "property": "C47",
   "status": "partial",
   "theorems": [
    "Verif.C47_loop_partial",
    "Verif.C47_loop_violated",
    "Verif.C47_conditions_needed",
    "Verif.C47_ieee_partial",
    "Verif.C47_ieee_inner_partial",
    "Verif.C47_ieee_long_step_violated"
   ],
   "note": "The code violates this in IEEE arithmetic by the same rounding of ind+1, and by a step equal to the loop length being rounded to the loop end. Proved: the whole property in exact arithmetic for every history; in IEEE, for every history with tracks up to 2^23 samples and steps up to the loop length less one, that the rounding of ind+1 at the end of the track is the only panic, so loops ending two samples before the end of the track never panic."
  },
  {
   "property": "C48",
   "status": "proved",
   "theorems": [
    "Verif.C48_interpolates"
   ],
   "note": "Exact real arithmetic."
  },
  {
   "property": "C49",
   "status": "partial",
   "theorems": [
    "Verif.C49_loop_end_zero_violated",
    "Verif.C49_loop_end_zero_partial",
    "Verif.C49_swapped_violated"
   ],
   "note": "The code violates this: a positive loop_start with loop_end = 0 is swapped into a loop over the first loop_start samples (any arithmetic). Proved (exact arithmetic): silence after the end for loop_start = 0, which is the only case left."
  },
  {
   "property": "C50",
   "status": "partial",
   "theorems": [
    "Verif.C50_seamless_violated",
    "Verif.C50_seamless_partial",
    "Verif.C50_loop_partial"
   ],
   "note": "The code violates this for loops over part of the track. Proved (exact arithmetic): seamless when the loop is the whole track; for every other loop the output is the seamless one except between the last sample of the loop and the loop end, with the exact output given there."
  },
  {
   "property": "C51",
   "status": "proved",
   "theorems": [
    "Verif.C51_delay",
    "Verif.C51_new",
    "Verif.C51_zero"
   ],
   "note": "Any arithmetic."
  },
  {
   "property": "C52",
   "status": "proved",
   "theorems": [
    "Verif.C52_delay_length"
   ],
   "note": "IEEE arithmetic for the length; see the theorem for the range of durations."
  },
  {
   "property": "C53",
   "status": "partial",
   "theorems": [
    "Verif.C53_clone_violated",
    "Verif.C53_clone_partial"
   ],
   "note": "The code violates this: clone multiplies the length by 48000, so a 1-sample delay clones to a 1-second delay. Proved: the clone is silent and delays by 48000 times as much, which is right only for length 0."
  },
  {
   "property": "C54",
   "status": "proved",
   "theorems": [
    "Verif.C54_echo",
    "Verif.C54_bounded"
   ],
   "note": "The recurrence holds in any arithmetic, the bound in exact arithmetic."
  },
  {
   "property": "C55",
   "status": "partial",
   "theorems": [
    "Verif.C55_echo_violated",
    "Verif.C55_echo_partial"
   ],
   "note": "The code violates this: durations that round to 0 samples leave an empty queue and process unwraps None. Proved: no panic for every duration of at least 20834 ns, panic for every shorter one."
  },
  {
   "property": "C56",
   "status": "proved",
   "theorems": [
    "Verif.C56_generic"
   ],
   "note": "Any arithmetic. Hypothesis: in each tap list the last tap has the largest delay, which C57 shows is needed."
  },
  {
   "property": "C57",
   "status": "partial",
   "theorems": [
    "Verif.C57_generic_violated",
    "Verif.C57_generic_partial"
   ],
   "note": "The code violates this: taps out of order index past the buffer. Proved when the last tap of each list has the largest delay."
  },
  {
   "property": "C58",
   "status": "proved",
   "theorems": [
    "Verif.C58_delay",
    "Verif.C58_echo",
    "Verif.C58_generic",
    "Verif.C58_gain",
    "Verif.C58_lowpass",
    "Verif.C58_highpass",
    "Verif.C58_bandpass",
    "Verif.C58_new"
   ],
   "note": "Exact real arithmetic."
  },
  {
   "property": "C59",
   "status": "proved",
   "theorems": [
    "Verif.C59_unit_gain",
    "Verif.C59_prototype",
    "Verif.C59_settles"
   ],
   "note": "Exact real arithmetic; unit DC gain, backward-Euler form of the third-order prototype, and convergence of the step response."
  },
  {
   "property": "C60",
   "status": "proved",
   "theorems": [
    "Verif.C60_blocks_dc",
    "Verif.C60_prototype",
    "Verif.C60_settles"
   ],
   "note": "Exact real arithmetic, including convergence to 0."
  },
  {
   "property": "C61",
   "status": "proved",
   "theorems": [
    "Verif.C61_settled",
    "Verif.C61_settles"
   ],
   "note": "Exact real arithmetic, including convergence to 0."
  },
  {
   "property": "C62",
   "status": "proved",
   "theorems": [
    "Verif.C62_lowpass",
    "Verif.C62_highpass"
   ],
   "note": "IEEE arithmetic, all f64 arguments, any math library."
  },
  {
   "property": "C63",
   "status": "proved",
   "theorems": [
    "Verif.C63_lowpass",
    "Verif.C63_highpass",
    "Verif.C63_bandpass",
    "Verif.C63_bandpass_corners"
   ],
   "note": "Exact real arithmetic."
  },
  {
   "property": "C64",
   "status": "proved",
   "theorems": [
    "Verif.C64_corners"
   ],
   "note": "Exact real arithmetic."
  },
  {
   "property": "C65",
   "status": "proved",
   "theorems": [
    "Verif.C65_history",
    "Verif.C65_coefficients"
   ],
   "note": "Any arithmetic."
  },
  {
   "property": "C66",
   "status": "proved",
   "theorems": [
    "Verif.C66_gain",
    "Verif.C66_output"
   ],
   "note": "IEEE arithmetic. Hypothesis on the math library: the sustain level 10^(min(s,0)/20) it computes is in [0,1]. Excluded: decay 0 at level exactly 1 and release 0 at level exactly 0 (rate 0/0, see C70)."
  },
  {
   "property": "C67",
   "status": "proved",
   "theorems": [
    "Verif.C67_phases",
    "Verif.C67_release",
    "Verif.C67_stationary",
    "Verif.C67_levels"
   ],
   "note": "Any arithmetic."
  },
  {
   "property": "C68",
   "status": "proved",
   "theorems": [
    "Verif.C68_attack",
    "Verif.C68_decay",
    "Verif.C68_decay_flat",
    "Verif.C68_release"
   ],
   "note": "Exact real arithmetic."
  },
  {
   "property": "C69",
   "status": "partial",
   "theorems": [
    "Verif.C69_violated",
    "Verif.C69_partial"
   ],
   "note": "The code violates this: every attack of 699.050645834 s or more stalls at gain 1/2 or below. Proved: every attack of at most 699.050645833 s (one nanosecond less) finishes within 2^25 samples."
  },
  {
   "property": "C70",
   "status": "partial",
   "theorems": [
    "Verif.C70_decay_violated",
    "Verif.C70_release_violated",
    "Verif.C70_partial"
   ],
   "note": "The code violates this for decay 0 at 0 dB and for release 0 at level 0 (both 0/0). Proved outside these two combinations, given a sustain level in [0,1] from the math library."
  },
  {
   "property": "C71",
   "status": "partial",
   "theorems": [
    "Verif.C71_nonneg_violated",
    "Verif.C71_nonneg_partial",
    "Verif.C71_peak",
    "Verif.C71_tracks",
    "Verif.C71_magnitude"
   ],
   "note": "Exact real arithmetic. The code violates non-negativity for every lower above 12000; proved for lower <= 12000 and every upper. The peak bound, the dependence on |x| only (any arithmetic) and tracking of constants are proved as stated."
  },
  {
   "property": "C72",
   "status": "proved",
   "theorems": [
    "Verif.C72_lowpass_highpass",
    "Verif.C72_bandpass",
    "Verif.C72_envelope_generic",
    "Verif.C72_adsr"
   ],
   "note": "Any arithmetic."
  },
  {
   "property": "C73",
   "status": "proved",
   "theorems": [
    "Verif.C73_memoryless"
   ],
   "note": "Any arithmetic."
  },
  {
   "property": "C74",
   "status": "proved",
   "theorems": [
    "Verif.C74_process",
    "Verif.C74_returns",
    "Verif.C74_shared"
   ],
   "note": "Any arithmetic, any generator, modifier and interactor."
  },
  {
   "property": "C75",
   "status": "proved",
   "theorems": [
    "Verif.C75_steps",
    "Verif.C75_from_generator",
    "Verif.C75_from_modifier",
    "Verif.C75_default"
   ],
   "note": "Any arithmetic."
  },
  {
   "property": "C76",
   "status": "proved",
   "theorems": [
    "Verif.C76_process",
    "Verif.C76_run",
    "Verif.C76_built"
   ],
   "note": "Any arithmetic, any block type. Single calls and whole runs; also says when a panic in a block propagates."
  },
  {
   "property": "C77",
   "status": "proved",
   "theorems": [
    "Verif.C77_simple",
    "Verif.C77_simple_toggle",
    "Verif.C77_complex",
    "Verif.C77_complex_toggle"
   ],
   "note": "Any arithmetic; both kinds of sound."
  },
  {
   "property": "C78",
   "status": "proved",
   "theorems": [
    "Verif.C78_simple",
    "Verif.C78_complex"
   ],
   "note": "Any arithmetic; both kinds of sound."
  },
  {
   "property": "C79",
   "status": "proved",
   "theorems": [
    "Verif.C79_simple",
    "Verif.C79_complex",
    "Verif.C79_trait",
    "Verif.C79_gain",
    "Verif.C79_trait_play"
   ],
   "note": "Any arithmetic for flags and ids (all sequences of calls); gains in IEEE arithmetic. C79_trait: the same through dyn Sound, with samples processed in between, for both kinds of sound."
  },
  {
   "property": "C80",
   "status": "proved",
   "theorems": [
    "Verif.C80_modifiers",
    "Verif.C80_generator",
    "Verif.C80_all_shared",
    "Verif.C80_clone"
   ],
   "note": "Any arithmetic, any block type. The output with everything shared is 0 times the output gain, which is NaN when the gain is infinite or NaN."
  },
  {
   "property": "C81",
   "status": "partial",
   "theorems": [
    "Verif.C81_violated",
    "Verif.C81_partial"
   ],
   "note": "Violated: after clone() every block is shared, so process of the original and of the clone panics unless paused. Partial: dropping either of the two restores a sound that behaves exactly as before."
  },
  {
   "property": "C82",
   "status": "proved",
   "theorems": [
    "Verif.C82_order",
    "Verif.C82_terminates",
    "Verif.C82_addBlock",
    "Verif.C82_new"
   ],
   "note": "Any graph, including cycles and self-loops."
  },
  {
   "property": "C83",
   "status": "partial",
   "theorems": [
    "Verif.C83_violated_silent",
    "Verif.C83_violated_mix",
    "Verif.C83_sources_partial",
    "Verif.C83_forest_partial",
    "Verif.C83_acyclic_partial",
    "Verif.C83_layers_partial",
    "Verif.C83_violated"
   ],
   "note": "Violated: a diamond fed by two sources drops a downstream block from the order (and a sound can be silent because of it); mixing voices of different length in the output gain is enough. Partial: every source and every direct target of a source is in the order; every reachable block is when no block has two inputs; and every block is in layered graphs (all sources in layer 0, each connection to the next layer or from the last layer to the output, mixing only in the last layer and the output gain)."
  },
  {
   "property": "C84",
   "status": "partial",
   "theorems": [
    "Verif.C84_violated_delay",
    "Verif.C84_partial",
    "Verif.C84_acyclic_partial",
    "Verif.C84_layers_partial",
    "Verif.C84_violated"
   ],
   "note": "Violated: with a->b->c and a->c, c is processed before b. Partial: holds when no block has two inputs and in layered graphs (see C83), if nothing is connected into the input gain and nothing out of the output gain."
  },
  {
   "property": "C85",
   "status": "proved",
   "theorems": [
    "Verif.C85_process",
    "Verif.C85_standard_block"
   ],
   "note": "Any arithmetic, any graph and any block type."
  },
  {
   "property": "C86",
   "status": "proved",
   "theorems": [
    "Verif.C86_process",
    "Verif.C86_calls"
   ],
   "note": "Any arithmetic, any block type whose process returns; all sequences of legal calls."
  },
  {
   "property": "C87",
   "status": "partial",
   "theorems": [
    "Verif.C87_partial",
    "Verif.C87_violated"
   ],
   "note": "Violated: three samples given before the first connection come out as one burst of their sum afterwards. Partial: once the order is computed and nothing connects to the input gain, a call keeps nothing of its input there."
  },
  {
   "property": "C88",
   "status": "proved",
   "theorems": [
    "Verif.C88_twice",
    "Verif.C88_edges",
    "Verif.C88_inverse",
    "Verif.C88_panics"
   ],
   "note": "Any arithmetic; panics for node indices outside the graph are also characterised."
  },
  {
   "property": "C89",
   "status": "partial",
   "theorems": [
    "Verif.C89_violated",
    "Verif.C89_violated_noop",
    "Verif.C89_partial"
   ],
   "note": "Violated: process never writes output, which stays empty for every history, and process changes nothing. Partial: the length is right exactly for durations up to 20833 ns, where it is 0."
  },
  {
   "property": "C90",
   "status": "proved",
   "theorems": [
    "Verif.C90_ids",
    "Verif.C90_lookup"
   ],
   "note": "Any Sound whose get_id returns what register set. Ids are modelled as naturals: the overflow after 2^64 calls is not modelled."
  },
  {
   "property": "C91",
   "status": "partial",
   "theorems": [
    "Verif.C91_partial",
    "Verif.C91_violated"
   ],
   "note": "Violated in part: the removed sound keeps its id (it is never unregistered). The removal part is proved for every history."
  },
  {
   "property": "C92",
   "status": "partial",
   "theorems": [
    "Verif.C92_violated_twice",
    "Verif.C92_violated_shared",
    "Verif.C92_partial",
    "Verif.C92_time_partial",
    "Verif.C92_violated_time",
    "Verif.C92_mono_violated",
    "Verif.C92_stereo_violated"
   ],
   "note": "Violated: adding the same sound twice, adding a sound someone else also holds, and too long a process time panic; the exact limits are 48038396025285.285156251 s for mono and 24019198012642.642578126 s for stereo. Partial: process, set_gain, remove_sound and adding unshared sounds never panic after any history. Running out of memory is not modelled."
  },
  {
   "property": "C93",
   "status": "proved",
   "theorems": [
    "Verif.C93_fields",
    "Verif.C93_empty",
    "Verif.C93_injective",
    "Verif.C93_program"
   ],
   "note": "Includes that conversion never panics and is injective. For no bytes the text is blank. The whole file written is given line by line."
  },
  {
   "property": "C94",
   "status": "partial",
   "theorems": [
    "Verif.C94_partial",
    "Verif.C94_violated"
   ],
   "note": "Violated for an empty input only (its single line has two spaces). Partial: every non-empty input, with the sharper bound of 79 characters."
  },
  {
   "property": "C95",
   "status": "proved",
   "theorems": [
    "Verif.C95_triangle"
   ],
   "note": "Exact real arithmetic."
  },
  {
   "property": "C96",
   "status": "partial",
   "theorems": [
    "Verif.C96_lowpass_partial",
    "Verif.C96_highpass_partial",
    "Verif.C96_lowpass_damped_partial",
    "Verif.C96_highpass_damped_partial",
    "Verif.C96_highpass_violated",
    "Verif.C96_lowpass_violated"
   ],
   "note": "The code violates this: at 20 Hz and resonance 1 a single pulse drives both filters to infinity and NaN within 34637 samples, for ever (IEEE, every libm accurate to 2^-40; the run is evaluated by the kernel). Proved: bounded output for every cutoff not below 400 Hz (NaN and infinite cutoffs included) at every resonance (100 and 300 times the input), and not below 200 Hz at resonance up to 1/2 (13 and 42 times); missing is the range between 20 Hz and these."
  },
  {
   "property": "C97",
   "status": "proved",
   "theorems": [
    "Verif.C97_lowpass",
    "Verif.C97_highpass"
   ],
   "note": "IEEE; every libm whose cos and powf meet LibmAccurate (shown inhabited)."
  },
  {
   "property": "C98",
   "status": "proved",
   "theorems": [
    "Verif.C98_sawtooth_tune"
   ],
   "note": "IEEE."
  },
  {
   "property": "C99",
   "status": "proved",
   "theorems": [
    "Verif.C99_triangle_tune"
   ],
   "note": "IEEE."
  },
  {
   "property": "C100",
   "status": "proved",
   "theorems": [
    "Verif.C100_square_tune"
   ],
   "note": "IEEE; nothing is claimed for sample 0 and other phases within (n+2)*2^-50 of a jump, where rounding may choose either side."
  },
  {
   "property": "C101",
   "status": "proved",
   "theorems": [
    "Verif.C101_sine_tune",
    "Verif.C101_no_drift",
    "Verif.C101_periodic"
   ],
   "note": "IEEE; every libm meeting SinAccurate (shown inhabited). The last table step is the one where C40 is violated."
  },
  {
   "property": "C102",
   "status": "proved",
   "theorems": [
    "Verif.C102_echo_bounded",
    "Verif.C102_bound_needed"
   ],
   "note": "IEEE."
  },
  {
   "property": "C103",
   "status": "proved",
   "theorems": [
    "Verif.C103_envelope_f32"
   ],
   "note": "IEEE; every f32 tan meeting TanAccurate (shown inhabited)."
  },
  {
   "property": "C104",
   "status": "proved",
   "theorems": [
    "Verif.C104_clerp_f64",
    "Verif.C104_overshoot"
   ],
   "note": "IEEE."
  },
  {
   "property": "C105",
   "status": "proved",
   "theorems": [
    "Verif.C105_normalize_peak"
   ],
   "note": "IEEE; the gain is the value of db_to_linear narrowed to f32, whatever libm answers."
  },
  {
   "property": "C106",
   "status": "proved",
   "theorems": [
    "Verif.C106_equal_power",
    "Verif.C106_roundtrip"
   ],
   "note": "IEEE. The factor 2 on the way back is the violation of C13."
  },
  {
   "property": "C107",
   "status": "partial",
   "theorems": [
    "Verif.C107_drift_partial",
    "Verif.C107_pitch_violated",
    "Verif.C107_onset_violated"
   ],
   "note": "The code violates this: every 44.1 kHz track of more than 2^21 samples is over a second behind after 48.6 s (IEEE; the f32 position advances by 7/8 instead of 0.91875 per sample from 2^20 on). Proved: the error after n samples is at most n*(2^(k-25) + 2^-22*step) while the position is below 2^k."
  },
  {
   "property": "C108",
   "status": "partial",
   "theorems": [
    "Verif.C108_glitch_violated",
    "Verif.C108_output_partial"
   ],
   "note": "The code violates this: just below sample number 2^j the neighbour floor(p)+2 can be used, a full-scale glitch. Proved (IEEE): right up to 2^-21 of the peak at every position whose next sample number is not a power of two, three samples or more from the end."
  },
  {
   "property": "C109",
   "status": "partial",
   "theorems": [
    "Verif.C109_attack_decay_partial",
    "Verif.C109_release_partial",
    "Verif.C109_violated"
   ],
   "note": "The code violates this for long phases: an attack of 100 s is still going on after 107 s (IEEE). Proved (IEEE): attack, decay and release of N samples (N up to 2^22 times the level difference covered) take N samples up to 1 + N*(N/D*2^-24 + 2^-21) with D the level difference; at 1 s that is 0.3%."
  },
  {
   "property": "C110",
   "status": "proved",
   "theorems": [
    "Verif.C110_bounded",
    "Verif.C110_blocks"
   ],
   "note": "Proved (IEEE), assuming the platform's f64 tan is accurate to 2^-40 on [2^-12, 1.5705] (Spec/LibmTan64, shown satisfiable)."
  },
  {
   "property": "C111",
   "status": "proved",
   "theorems": [
    "Verif.C111_getters",
    "Verif.C111_sine",
    "Verif.C111_triangle"
   ],
   "note": "Proved (IEEE)."
  },
  {
   "property": "C112",
   "status": "proved",
   "theorems": [
    "Verif.C112_corners",
    "Verif.C112_usable"
   ],
   "note": "Proved (IEEE), with the consequence that C110 applies to every filter made from corners between 9 Hz and 23991 Hz."
  },
  {
   "property": "C113",
   "status": "partial",
   "theorems": [
    "Verif.C113_dc_violated",
    "Verif.C113_dc_partial"
   ],
   "note": "Violated in f32: three samples 0.9 at 0 dB come out as three samples 1.0. Proved (IEEE): output = c*(input - mean) within g(n+16)2^-24/P, where P is the peak of the input minus its mean, and the same bound on the output mean."
  },
  {
   "property": "C114",
   "status": "proved",
   "theorems": [
    "Verif.C114_clone",
    "Verif.C114_clone_wav"
   ],
   "note": "Proved for any arithmetic."
  },
  {
   "property": "C115",
   "status": "proved",
   "theorems": [
    "Verif.C115_loads",
    "Verif.C115_pitch",
    "Verif.C115_verbatim",
    "Verif.C115_written"
   ],
   "note": "Proved: loading for any arithmetic, pitch in exact arithmetic, verbatim playback and write-then-play in IEEE. Other rates in IEEE are covered by C45-C48."
  },
  {
   "property": "C116",
   "status": "proved",
   "theorems": [
    "Verif.C116_db_to_linear",
    "Verif.C116_linear_to_db",
    "Verif.C116_round_trip"
   ],
   "note": "Proved (IEEE) for every libm meeting DbAccurate."
  },
  {
   "property": "C117",
   "status": "proved",
   "theorems": [
    "Verif.C117_pan",
    "Verif.C117_pan_f32"
   ],
   "note": "Proved (IEEE) for every libm meeting DbAccurate; out-of-range and infinite positions are C15."
  },
  {
   "property": "C118",
   "status": "partial",
   "theorems": [
    "Verif.C118_lowpass_partial",
    "Verif.C118_highpass_partial",
    "Verif.C118_lowpass_settles_partial",
    "Verif.C118_highpass_settles_partial",
    "Verif.C118_lowpass_violated",
    "Verif.C118_highpass_violated",
    "Verif.C118_lowpass_bound_partial",
    "Verif.C118_highpass_bound_partial",
    "Verif.C118_table_partial"
   ],
   "note": "The code violates this at low cutoffs: a 90 Hz low pass given the constant 1.0 settles at 1.0808 exactly and stays there (IEEE, every libm accurate to 2^-40; 31385 samples evaluated by the kernel), and an 85 Hz high pass given the constant 0.6 lets 6.9 % of it through for ever. Proved: low pass from 2 kHz, or 1 kHz at resonance up to 1/2; high pass from 2.5 kHz, or 1.5 kHz at resonance up to 1/2. C118_lowpass_bound_partial and C118_highpass_bound_partial give the error as a formula of the cutoff, C118_table_partial for 1, 2, 5 and 12 kHz. Missing: the 3 % at the cutoffs in between."
  },
  {
   "property": "C119",
   "status": "partial",
   "theorems": [
    "Verif.C119_step",
    "Verif.C119_run",
    "Verif.C119_built_partial",
    "Verif.C119_standard",
    "Verif.C119_violated"
   ],
   "note": "The code violates this: input -> 2 -> 3 -> 4 -> output with 2 -> 4, connected in that order, gives 1 instead of 2 for an impulse (and the rest one sample late), whatever the order of summation. Proved, for any arithmetic and any blocks: whenever the order contains every block and respects every connection; in particular for every sound built by calls whose graph is acyclic with at most one connection into each block, or layered (see C83). Missing: other graphs."
  },
  {
   "property": "C120",
   "status": "proved",
   "theorems": [
    "Verif.C120_process",
    "Verif.C120_set_gain",
    "Verif.C120_new",
    "Verif.C120_exact"
   ],
   "note": "For any contents of the output, although only the empty output is reachable (C89). A second call without clearing adds to the scaled result of the first."
  },
  {
   "property": "C121",
   "status": "proved",
   "theorems": [
    "Verif.C121_loops",
    "Verif.C121_verbatim"
   ],
   "note": "IEEE. The sample is bit-exact, except that -0.0 may come out as 0.0. Steps longer than the loop panic or leave it (C47)."
  },
  {
   "property": "C122",
   "status": "proved",
   "theorems": [
    "Verif.C122_voice",
    "Verif.C122_generator_block",
    "Verif.C122_modifier_block",
    "Verif.C122_set_frequency",
    "Verif.C122_generators",
    "Verif.C122_sine",
    "Verif.C122_modifiers",
    "Verif.C122_new",
    "Verif.C122_synth"
   ],
   "note": "IEEE. C122_voice is for any blocks meeting the range conditions; the others show that the oscillators (the sine if its table is in [-1,1], see C39) and the modifiers meet them; C122_synth puts an oscillator and an envelope together. Blocks may be shared and unshared at any time (a shared block is skipped, C80). Edits stand for calls on the objects inside a block."
  },
  {
   "property": "C123",
   "status": "proved",
   "theorems": [
    "Verif.C123_lowpass",
    "Verif.C123_highpass",
    "Verif.C123_bandpass"
   ],
   "note": "Exact reals. SteadyGain fixes the gain (SteadyGain.unique). LowPass/HighPass: 0 < fc, any resonance; BandPass: 0 < l < h < 24000."
  },
  {
   "property": "C124",
   "status": "partial",
   "theorems": [
    "Verif.C124_butterworth",
    "Verif.C124_never_amplifies",
    "Verif.C124_resonance",
    "Verif.C124_monotone",
    "Verif.C124_peak",
    "Verif.C124_two_sided",
    "Verif.C124_butterworth_partial",
    "Verif.C124_cutoff_partial",
    "Verif.C124_rolloff_partial",
    "Verif.C124_cutoff_violated",
    "Verif.C124_highpass_violated",
    "Verif.C124_slope_violated"
   ],
   "note": "Exact reals. Violated: at 12 kHz the cutoff is at -11 dB and the high pass passes nothing above -11 dB; the octave 12-24 kHz falls by at most 9.1 dB. Proved: attenuation at least Butterworth (never above 1), within 1 dB of it for cutoffs up to 500 Hz, cutoff between -4 and -3 dB there, 18 dB per octave as an upper bound, monotone in the frequency and in the resonance; with full resonance some frequency is boosted by 16000/(pi fc) or more."
  },
  {
   "property": "C125",
   "status": "partial",
   "theorems": [
    "Verif.C125_peak_bound",
    "Verif.C125_peak_partial",
    "Verif.C125_corners_partial",
    "Verif.C125_rolloff_partial",
    "Verif.C125_slope_violated",
    "Verif.C125_unity_violated"
   ],
   "note": "Exact reals. Violated: a narrow band comes out at half its amplitude, and the slope is 6 dB per octave. Proved: the peak lies inside the band, between -6 and 0 dB, both corners have the same gain between -6 and -3 dB, and the gain falls off at 6 dB per octave on both sides."
  },
  {
   "property": "C126",
   "status": "proved",
   "theorems": [
    "Verif.C126_generic_bounded",
    "Verif.C126_generic_settles",
    "Verif.C126_generic",
    "Verif.C126_echo",
    "Verif.C126_echo_needed",
    "Verif.C126_memoryless",
    "Verif.C126_filters_settle"
   ],
   "note": "Exact reals. Zeros and poles listed with the largest delay last (LastLargest, else Generic panics, C56). C126_echo_needed shows the bound on the echo gain is needed."
  },
  {
   "property": "C127",
   "status": "proved",
   "theorems": [
    "Verif.C127_block",
    "Verif.C127_series",
    "Verif.C127_sound",
    "Verif.C127_sum"
   ],
   "note": "Exact reals. Sound neither paused nor muted; each block behind its own handle (Owns). C127_block takes any modifier of C123 and C126 into a block, C127_sum mixes block types."
  },
  {
   "property": "C128",
   "status": "partial",
   "theorems": [
    "Verif.C128_lowpass_partial",
    "Verif.C128_highpass_partial",
    "Verif.C128_sine_lowpass_partial",
    "Verif.C128_sine_highpass_partial",
    "Verif.C128_lowpass_violated",
    "Verif.C128_highpass_violated",
    "Verif.C128_lowpass_cutoff_partial",
    "Verif.C128_highpass_cutoff_partial",
    "Verif.C128_sine_cutoff_partial"
   ],
   "note": "The code violates this at low cutoffs: the 90 Hz low pass given a constant stays 8 % above the level (C128_lowpass_violated), and the 85 Hz high pass passes 6.9 % of a constant (C128_highpass_violated). Proved for the cutoffs of C118: low pass from 2 kHz, or 1 kHz at resonance up to 1/2; high pass from 2.5 kHz, or 1.5 kHz at resonance up to 1/2. The Sine theorems take frequencies that are whole multiples of 10/2^39 Hz (every multiple of 10 Hz among them), which do not drift (C101_no_drift). The _cutoff theorems give the distance as a function of the cutoff (any resonance), to any further accuracy; C128_sine_cutoff_partial tabulates it. Missing: low cutoffs, where loopError exceeds 1/2."
  },
  {
   "property": "C129",
   "status": "proved",
   "theorems": [
    "Verif.C129_gain",
    "Verif.C129_delay",
    "Verif.C129_echo",
    "Verif.C129_lowpass",
    "Verif.C129_highpass",
    "Verif.C129_generic",
    "Verif.C129_block",
    "Verif.C129_sum",
    "Verif.C129_series",
    "Verif.C129_sound",
    "Verif.C129_level",
    "Verif.C129_sine"
   ],
   "note": "Feedback must be below 1 (Echo gain below 1 - 2^-22, Generic feedback sum times 1 + 2^-20 per tap below 1). Sizes between 2^-80 and 2^80."
  },
  {
   "property": "C130",
   "status": "partial",
   "theorems": [
    "Verif.C130_owners",
    "Verif.C130_control_partial",
    "Verif.C130_regained_partial",
    "Verif.C130_violated",
    "Verif.C130_playable",
    "Verif.C130_add",
    "Verif.C130_clone_drop",
    "Verif.C130_clone_ids"
   ],
   "note": "add_sound leaves a second pointer in the channel, so Arc::get_mut fails for the owner until removal; a sound that process could play (one pointer) is one nobody can control. After cloning a channel both copies hand out the same ids."
  },
  {
   "property": "C131",
   "status": "proved",
   "theorems": [
    "Verif.C131_generator",
    "Verif.C131_modifier",
    "Verif.C131_pending",
    "Verif.C131_unshare",
    "Verif.C131_share"
   ],
   "note": ""
  },
  {
   "property": "C132",
   "status": "partial",
   "theorems": [
    "Verif.C132_access",
    "Verif.C132_position_partial",
    "Verif.C132_end",
    "Verif.C132_backwards_violated",
    "Verif.C132_no_click",
    "Verif.C132_drift_f32_partial",
    "Verif.C132_output_f32_partial"
   ],
   "note": "Before the start the first sample is held for ever instead of silence. Exact arithmetic for all speeds; IEEE (position and output, with explicit drift) for positive speeds up to three samples before the end."
  },
  {
   "property": "C133",
   "status": "proved",
   "theorems": [
    "Verif.C133_code16",
    "Verif.C133_code24",
    "Verif.C133_code8",
    "Verif.C133_unity",
    "Verif.C133_effects",
    "Verif.C133_file",
    "Verif.C133_file8",
    "Verif.C133_echo_file"
   ],
   "note": "The bound with effects holds at frames where the exact output is in [-1,1]; beyond, C04 and C05 describe the codes."
  },
  {
   "property": "C134",
   "status": "proved",
   "theorems": [
    "Verif.C134_corners",
    "Verif.C134_new",
    "Verif.C134_tracks",
    "Verif.C134_level",
    "Verif.C134_sine"
   ],
   "note": "Assumes tan accurate to 2^-40 (relative), as C110. For a freshly made filter; C65 and C72 describe the setters and clone."
  },
  {
   "property": "C135",
   "status": "partial",
   "theorems": [
    "Verif.C135_lowpass_modulated_partial",
    "Verif.C135_highpass_modulated_partial",
    "Verif.C135_lowpass_modulated_f32_partial",
    "Verif.C135_highpass_modulated_f32_partial",
    "Verif.C135_lowpass_partial",
    "Verif.C135_highpass_partial",
    "Verif.C135_bandpass_partial",
    "Verif.C135_bandpass_modulated_partial",
    "Verif.C135_bandpass_violated",
    "Verif.C135_lowpass_violated",
    "Verif.C135_jump_violated",
    "Verif.C135_highpass_violated"
   ],
   "note": "Violated: LowPass and HighPass in f32, with the cutoff set to 20 kHz and 100 Hz in turn before each sample, turn one sample of 1.0 into infinity within 30 ms and never recover; a single change of a LowPass from 20 kHz to 100 Hz turns five samples of size 1 into an output above 3000; BandPass with its band moved to and fro grows without bound (exact arithmetic). The filters keep past outputs as state and these mean something else under new coefficients. Proved: with parameters that stop changing all three filters forget the past and converge to a fresh filter (exact arithmetic), LowPass and HighPass stay bounded by a constant times the input level, from any state, under any modulation of the cutoff within a factor 9/5 without resonance or 7/5 with resonance up to 1/2 (in f32 from 400 Hz on, from a new filter, every sample finite and the low pass within 100 times the input level), and BandPass stays bounded under any modulation of corners between 6 and 18 kHz."
  },
  {
   "property": "C136",
   "status": "partial",
   "theorems": [
    "Verif.C136_violated",
    "Verif.C136_partial"
   ],
   "note": "Violated: the release slope is computed from the sustain level, so a note released above it falls too slowly, and if the sustain level times 2^25 is at most the number of samples of the release, the f32 gain 1 does not move at all: a pluck with sustain -80 dB and release 100 ms, released at its peak, sounds for ever at full level (more generally gains of 2^-k with level * 2^(25+k)). Proved: a release ends from every history when level * 2^25 exceeds the number of samples (times 1 + 2^-22)."
  },
  {
   "property": "C137",
   "status": "proved",
   "theorems": [
    "Verif.C137_gain",
    "Verif.C137_output"
   ],
   "note": "Up to a factor 1 + 2^-21 and 2^-24 (gain) or 2^-23 (output) of rounding. The sustain level as f64, which the math library must place in [0,1], is a hypothesis as in C66."
  },
  {
   "property": "C138",
   "status": "partial",
   "theorems": [
    "Verif.C138_step",
    "Verif.C138_rises_violated",
    "Verif.C138_rises_partial",
    "Verif.C138_settles",
    "Verif.C138_settles_f32"
   ],
   "note": "Settling is proved: exactly geometric at the pole of upper or lower, at least as fast as e^(-2\u03c0f/48000) per sample, never passing the level; in IEEE arithmetic the distance shrinks by 1 - f/15500 per sample down to c/(130 f), f the lower of the two frequencies. Violated: the branch is chosen by the last sample but the output moves towards the mean of the last two, so for every pair of frequencies a sample louder than the envelope can make it fall (after a quieter one). Proved instead: it does not fall when the last two samples are both at least as loud."
  },
  {
   "property": "C139",
   "status": "partial",
   "theorems": [
    "Verif.C139_lowpass_violated",
    "Verif.C139_highpass_violated",
    "Verif.C139_bandpass_violated",
    "Verif.C139_envelope_violated",
    "Verif.C139_echo_violated",
    "Verif.C139_recover_partial"
   ],
   "note": "Violated by every effect with feedback: after one non-finite sample LowPass, HighPass, BandPass and Envelope never put out a finite sample again, whatever parameters are set later, and Echo repeats the bad sample every D samples for ever, whatever its gain. Proved for the others: the bad sample affects only its own place (Gain, Passthrough, ADSR), the place D later (Delay) or the reach of the taps (Generic without poles)."
  },
  {
   "property": "C140",
   "status": "partial",
   "theorems": [
    "Verif.C140_delay",
    "Verif.C140_generic",
    "Verif.C140_echo_violated",
    "Verif.C140_echo_partial",
    "Verif.C140_echo_fades_partial",
    "Verif.C140_envelope_violated",
    "Verif.C140_envelope_coef",
    "Verif.C140_bandpass_violated",
    "Verif.C140_lowpass_violated",
    "Verif.C140_highpass_violated"
   ],
   "note": "Proved for Delay and Generic without poles. Violated by Echo for gains with 1/2 < |g| \u2264 1: a nonzero sample is repeated as a nonzero (in the end subnormal) number for ever; by Envelope for a lower frequency of 4 to 3600 Hz: the level never returns to zero; and by LowPass and HighPass at 5 kHz: the answer to one sample stays at 3 \u00b7 2^-149 for ever. Proved for Echo: with |g| \u2264 1/2 exactly zero after 278 repeats, otherwise fading geometrically to below 2^-129. And by BandPass with corners between 9 and 4000 Hz: an input that fades to exact silence leaves 2^-149 for ever (C110 shows that the output does fall below 2^-126)."
  },
  {
   "property": "C141",
   "status": "partial",
   "theorems": [
    "Verif.C141_wide_violated",
    "Verif.C141_zero_centre_violated",
    "Verif.C141_zero_corner_violated",
    "Verif.C141_partial"
   ],
   "note": "Violated in three ways. Exact arithmetic: a centre up to 24 kHz whose upper corner lies between 24 and 48 kHz gives an impulse response that grows without bound; setting the centre of a playing filter to 0 turns its tail into a straight line. IEEE: a corner of 0 gives NaN for ever, also after the corners are set again. Proved: setting any two different corners strictly between 0 and 24 kHz keeps the output bounded from any state."
  },
  {
   "property": "C142",
   "status": "proved",
   "theorems": [
    "Verif.C142_flow",
    "Verif.C142_standard",
    "Verif.C142_diagram",
    "Verif.C142_loop"
   ],
   "note": "C142_flow and C142_standard hold in any arithmetic, C142_diagram describes a built sound by the signals of its blocks, and C142_loop is the closed form of a gain fed back to itself in exact arithmetic."
  },
  {
   "property": "C143",
   "status": "proved",
   "theorems": [
    "Verif.C143_plays",
    "Verif.C143_superposition",
    "Verif.C143_shift"
   ],
   "note": "Exact arithmetic. For every kind of effect that is linear and time invariant by itself; Gain, LowPass, HighPass, BandPass, Delay and Echo are shown to be usable together."
  },
  {
   "property": "C144",
   "status": "proved",
   "theorems": [
    "Verif.C144_convolution",
    "Verif.C144_determined",
    "Verif.C144_exchange",
    "Verif.C144_chain",
    "Verif.C144_sound",
    "Verif.C144_block"
   ],
   "note": "Exact arithmetic. In f32 the order matters for the last bits; an example shows it."
  },
  {
   "property": "C145",
   "status": "proved",
   "theorems": [
    "Verif.C145_smooth",
    "Verif.C145_tone",
    "Verif.C145_float",
    "Verif.C145_float_tone"
   ],
   "note": "C145_smooth is about any recording with bounded slope and curvature, C145_float and C145_float_tone carry the drift of the position and the rounding of f32."
  },
  {
   "property": "C146",
   "status": "partial",
   "theorems": [
    "Verif.C146_sawtooth_partial",
    "Verif.C146_square_partial",
    "Verif.C146_triangle",
    "Verif.C146_sine",
    "Verif.C146_sawtooth_violated",
    "Verif.C146_square_violated"
   ],
   "note": "Exact arithmetic. Violated by Sawtooth for even N (the sum over N samples is -1, a constant part of -1/N, for example -1/4 at 12 kHz) and by Square for odd N (sum 1). The partial theorems give the exact sum in every case; Triangle always has sum 0, Sine at most its table error per sample."
  },
  {
   "property": "C147",
   "status": "proved",
   "theorems": [
    "Verif.C147_network",
    "Verif.C147_gain",
    "Verif.C147_loop"
   ],
   "note": "IEEE f32 against exact arithmetic. C147_network is for any effects that meet Keeps; the bounds of C129 carry over (Tracks.keeps), C147_gain adds gains below 1, and C147_loop is a complete instance with a loop. Sizes between 2^-80 and 2^80."
  },
  {
   "property": "C148",
   "status": "partial",
   "theorems": [
    "Verif.C148_sawtooth",
    "Verif.C148_sawtooth_ieee",
    "Verif.C148_sine",
    "Verif.C148_sine_ieee",
    "Verif.C148_triangle_from",
    "Verif.C148_triangle_partial",
    "Verif.C148_triangle_violated",
    "Verif.C148_triangle_ieee_violated",
    "Verif.C148_square_partial",
    "Verif.C148_square_violated"
   ],
   "note": "Proved for Sawtooth and Sine, in exact arithmetic and in IEEE with explicit error. Violated by Triangle: set_frequency makes it rise whatever it was doing, so one whose frequency is set before every sample, even to the same value, rises to 1 and stays there (every frequency up to 12 kHz; IEEE at 1500 Hz). Violated by Square: it keeps the number of samples into the period, so the phase jumps, and after a change from 100 Hz to 20 kHz it may put out 1 for 286 samples. Proved for Triangle: after a change it is the ideal wave from the same phase if rising, from the mirrored phase if falling. For Square: the ideal wave from the jumped phase once it has caught up."
  },
  {
   "property": "C149",
   "status": "proved",
   "theorems": [
    "Verif.C149_effect",
    "Verif.C149_unique",
    "Verif.C149_network",
    "Verif.C149_series",
    "Verif.C149_parallel",
    "Verif.C149_feedback",
    "Verif.C149_echo"
   ],
   "note": "Exact arithmetic. The gain-and-delay loop is shown to be the Echo modifier of one sample more, followed by the gain."
  },
  {
   "property": "C150",
   "status": "partial",
   "theorems": [
    "Verif.C150_sawtooth",
    "Verif.C150_sawtooth_fourier",
    "Verif.C150_square_partial",
    "Verif.C150_square_violated",
    "Verif.C150_triangle_partial",
    "Verif.C150_triangle_violated",
    "Verif.C150_sine",
    "Verif.C150_triangle_f32_partial",
    "Verif.C150_sine_f32_partial",
    "Verif.C150_square_f32_partial",
    "Verif.C150_sawtooth_f32_partial"
   ],
   "note": "Amplitudes are given in closed form: 2/(N sin(\u03c0j/N)) for a sawtooth, which is at least the 2/(\u03c0j) of its Fourier series and at most \u03c0/2 times that; 4/(N sin(\u03c0j/N)) and 8/(N sin(\u03c0j/N))\u00b2 for the odd harmonics of square and triangle. Violated by Square if N is odd: its even harmonics do not vanish. Triangle: every even N (times |cos(\u03c0j/N)| if N is not a multiple of four). Sine: up to the error of its table. In f32 (the _f32 theorems): up to the accumulated error of N samples, the sample at the edge of a sawtooth and the two at the edges of a square counted as possibly wrong. Triangle with odd N has even harmonics as well (C150_triangle_violated, with the amplitudes of all)."
  },
  {
   "property": "C151",
   "status": "proved",
   "theorems": [
    "Verif.C151_gain_exists",
    "Verif.C151_energy",
    "Verif.C151_energy_sharp",
    "Verif.C151_energy_iff",
    "Verif.C151_peak",
    "Verif.C151_filters",
    "Verif.C151_resonance_needed",
    "Verif.C151_bandpass",
    "Verif.C151_echo",
    "Verif.C151_generic",
    "Verif.C151_memoryless",
    "Verif.C151_block",
    "Verif.C151_series",
    "Verif.C151_sound",
    "Verif.C151_sum",
    "Verif.C151_f32"
   ],
   "note": "For every linear, time invariant effect with bounded output the smallest energy gain is its largest gain at any frequency (C151_energy_iff). Exact values for BandPass and Echo; upper bounds for the others. With resonance LowPass does add energy (C151_resonance_needed). C151_f32 carries the bound over to f32 for every effect that tracks its exact counterpart (C129), with the rounding errors of one sample counted at every sample."
  },
  {
   "property": "C152",
   "status": "proved",
   "theorems": [
    "Verif.C152_network",
    "Verif.C152_feedback",
    "Verif.C152_adsr",
    "Verif.C152_needed"
   ],
   "note": "The gains are those of C151 for the effects of the crate; ADSR envelopes have gain 1 (C152_adsr). C152_needed: without the condition the claim fails. f32 rounding is not included."
  },
  {
   "property": "C153",
   "status": "proved",
   "theorems": [
    "Verif.C153_white",
    "Verif.C153_effect",
    "Verif.C153_effect_f32"
   ],
   "note": "The random numbers of the rand crate enter as a source that delivers every sequence of multiples of 2^-24 equally often (structure Fair, shown inhabited). f32: the samples are exact; for effects the root mean square is right up to the rounding budget C - B of C129."
  },
  {
   "property": "C154",
   "status": "proved",
   "theorems": [
    "Verif.C154_ring",
    "Verif.C154_square",
    "Verif.C154_two_sines"
   ],
   "note": "The error 1/750 of the level is that of the sine table (C101); Sine frequencies are whole multiples of 10/2^39 Hz, which do not drift."
  },
  {
   "property": "C155",
   "status": "proved",
   "theorems": [
    "Verif.C155_sawtooth",
    "Verif.C155_triangle",
    "Verif.C155_sine",
    "Verif.C155_sawtooth_f32",
    "Verif.C155_triangle_f32",
    "Verif.C155_sine_f32",
    "Verif.C155_window",
    "Verif.C155_square",
    "Verif.C155_sine_nyquist"
   ],
   "note": "Exact levels: 1/3 + 2/(3N^2) for a sawtooth with N even, 1/3 - 1/(3N^2) with N odd; triangle 1/3 + 8/(3N^2), 1/3 - 4/(3N^2), 1/3 - 1/(3N^2) for N = 0 mod 4, 2 mod 4, odd (squares). IEEE within 2^-25 + n*2^-49. The sine needs three samples per period: at 24 kHz it is silence (C155_sine_nyquist)."
  },
  {
   "property": "C156",
   "status": "partial",
   "theorems": [
    "Verif.C156_triangle_partial",
    "Verif.C156_sawtooth_violated",
    "Verif.C156_sawtooth_return_violated",
    "Verif.C156_f32_violated",
    "Verif.C156_triangle_violated",
    "Verif.C156_square_violated",
    "Verif.C156_sine_violated",
    "Verif.C156_sine_panic_violated",
    "Verif.C156_sine_f32_violated"
   ],
   "note": "Holds for Triangle between -24 and 24 kHz (IEEE, any history). Violated otherwise: a Sawtooth below zero falls for ever and, set back, is out of range for as long as it was below zero; a Sine below zero is silent and stays so for as long after; a Square below zero or above 48 kHz is the constant 1; a Triangle above 24 kHz and a Sawtooth above 48 kHz grow without bound; every Sine above 48 kHz panics, at the first n with n*(f - 48000) >= 48000."
  },
  {
   "property": "C157",
   "status": "partial",
   "theorems": [
    "Verif.C157_scale",
    "Verif.C157_between",
    "Verif.C157_louder_violated",
    "Verif.C157_louder_partial",
    "Verif.C157_average"
   ],
   "note": "Proportional for all frequencies; settles between the magnitudes up to 12 kHz; averages to the mean magnitude for periodic inputs when lower = upper. Violated for every lower < upper: raising one sample from the reading to just above it switches the follower to the fast speed towards a mean that is below it, and the reading drops. With lower = upper louder never reads less."
  },
  {
   "property": "C158",
   "status": "partial",
   "theorems": [
    "Verif.C158_allpass",
    "Verif.C158_linear_phase",
    "Verif.C158_undo",
    "Verif.C158_undo_echo",
    "Verif.C158_undo_violated",
    "Verif.C158_undo_partial"
   ],
   "note": "Holds in exact arithmetic. Violated in IEEE for undoing sample for sample (a sample of 2^-25 is lost beside an echo of 1/2); there the undone samples differ by at most 2^-23 times the sizes of the sample and of the echo's output, and the errors do not build up."
  },
  {
   "property": "C159",
   "status": "partial",
   "theorems": [
    "Verif.C159_write_partial",
    "Verif.C159_quiet_violated",
    "Verif.C159_silence_violated",
    "Verif.C159_peak_partial"
   ],
   "note": "Violated for silence (written as the lowest 8-bit code, clipped or not) and for very quiet tracks (infinite samples; 24-bit codes out of range). Partial: tracks of any length below 2^64, samples of magnitude at most 2^100 two of which differ by at least 2^-126, levels from -600 to 0 dB, accurate pow."
  },
  {
   "property": "C160",
   "status": "partial",
   "theorems": [
    "Verif.C160_up_u8",
    "Verif.C160_up_i16",
    "Verif.C160_range_violated",
    "Verif.C160_range_partial",
    "Verif.C160_down_i16",
    "Verif.C160_down_i24",
    "Verif.C160_files"
   ],
   "note": "Up and back is lossless for every sample and file. Violated: the 16-bit sample -32768 becomes the code -8388863, below the 24-bit range (clipped first, it comes back as -32767); every other sample stays in range. Down and back: at most 129 of the original codes (257 above the highest 8-bit sample)."
  },
  {
   "property": "C161",
   "status": "partial",
   "theorems": [
    "Verif.C161_shape",
    "Verif.C161_twice",
    "Verif.C161_twice_violated",
    "Verif.C161_twice_partial"
   ],
   "note": "Proved in exact arithmetic. Violated in f32: normalising [1,0,0] twice gives another track than once. Partial (IEEE): tracks of at most 2^24 samples that move at least P around their mean: the second pass moves no sample by more than 4N + g(8N/P + 2^-19), N = (n+16) 2^-24."
  },
  {
   "property": "C162",
   "status": "proved",
   "theorems": [
    "Verif.C162_echo",
    "Verif.C162_taps",
    "Verif.C162_hum",
    "Verif.C162_average",
    "Verif.C162_offset",
    "Verif.C162_constant"
   ],
   "note": "C162_echo, C162_taps, C162_average and C162_offset in exact arithmetic; C162_hum and C162_constant in IEEE f32 (compare C118_highpass_violated: HighPass does not remove a constant)."
  },
  {
   "property": "C163",
   "status": "partial",
   "theorems": [
    "Verif.C163_click_violated",
    "Verif.C163_smooth_partial",
    "Verif.C163_mirror_violated",
    "Verif.C163_mirror_partial",
    "Verif.C163_power_violated",
    "Verif.C163_power_partial",
    "Verif.C163_click_f64_violated",
    "Verif.C163_smooth_f64_partial"
   ],
   "note": "Violated three times: the left speaker jumps from -120 dB to 0 dB at the centre, opposite positions are mirror images at \u00b11/2 only, and the power is three times as large just right of the centre as at the centre. Proved: smoothness elsewhere with constant 10 (exact and IEEE), the positions that are mirror images, and a power range of 4.9 dB. IEEE theorems under DbAccurate."
  },
  {
   "property": "C164",
   "status": "partial",
   "theorems": [
    "Verif.C164_sound",
    "Verif.C164_level",
    "Verif.C164_never_amplifies",
    "Verif.C164_partial",
    "Verif.C164_violated",
    "Verif.C164_lost_violated"
   ],
   "note": "Violated: split at 8 kHz, a tone of 8 kHz comes back at less than 1/20 of its level, and at a cutoff of 24000/\u03c0 Hz it vanishes. Proved: the level at every frequency (C164_level), that the bands never exceed the sound, and at most 3 % (17 %) loss for cutoffs up to 100 Hz (500 Hz); C164_sound connects this to a complex sound built from the two filters."
  },
  {
   "property": "C165",
   "status": "partial",
   "theorems": [
    "Verif.C165_partial",
    "Verif.C165_standard",
    "Verif.C165_violated"
   ],
   "note": "Violated: two taps, or an unused source, connected beside a chain of three unit gains silence it (C165_violated). Proved for pairs of sounds of the shapes of C119: the outputs are equal, for any blocks if no block has two inputs, otherwise if priming does not depend on the order (exact arithmetic)."
  },
  {
   "property": "C166",
   "status": "proved",
   "theorems": [
    "Verif.C166_play",
    "Verif.C166_steps",
    "Verif.C166_double"
   ],
   "note": "Complements C45, C107 and C108, whose counterexamples (44.1 kHz, speed 1-2^-24) have other steps. Samples up to 2^90, interpolation within 2^-21 of the peak; 21 usual rates and speeds are checked to have exact steps."
  },
  {
   "property": "C167",
   "status": "proved",
   "theorems": [
    "Verif.C167_cost",
    "Verif.C167_built",
    "Verif.C167_effects"
   ],
   "note": "Counted by wrapping any block type in one that counts its calls. Computing the order when a connection changes is not counted (it visits at most blocks + 2 entries, C82_terminates)."
  },
  {
   "property": "C168",
   "status": "partial",
   "theorems": [
    "Verif.C168_partial",
    "Verif.C168_violated",
    "Verif.C168_rounding_violated"
   ],
   "note": "Violated: five connections made in two orders give 2, 0 and 1, 1 for an impulse; three voices mixed in the output gain are added in the order of wiring, which changes the rounding. Proved for the shapes of C119: equal outputs if no block has two inputs, otherwise if priming does not depend on the order (exact arithmetic, C165_standard)."
  },
  {
   "property": "C169",
   "status": "proved",
   "theorems": [
    "Verif.C169_effects",
    "Verif.C169_settings",
    "Verif.C169_envelope",
    "Verif.C169_tracks",
    "Verif.C169_encoded",
    "Verif.C169_block",
    "Verif.C169_network",
    "Verif.C169_chain",
    "Verif.C169_null",
    "Verif.C169_fresh"
   ],
   "note": "Bitwise up to the sign of zero. A network needs blocks that are mirrored: the same settings and generators, opposite histories; a block that plays its generator needs the opposite generator."
  },
  {
   "property": "C170",
   "status": "partial",
   "theorems": [
    "Verif.C170_partial",
    "Verif.C170_violated"
   ],
   "note": "Violated: a block that has only been added stands still until the next change of connections, a block that has been connected and disconnected runs, so two sounds with equal connections at every sample differ. Proved with that rule in the specification, for the shapes of C119 at every sample played."
  },
  {
   "property": "C171",
   "status": "proved",
   "theorems": [
    "Verif.C171_chord",
    "Verif.C171_chord_f32",
    "Verif.C171_pair"
   ],
   "note": "The weighted sum is taken exactly; what the channels and sounds make of a mix is C120 and C119. Errors: the table of 4800 entries of the sine (2*pi/4800 for each voice) and, in f32, rounding and drift."
  },
  {
   "property": "C172",
   "status": "proved",
   "theorems": [
    "Verif.C172_tones",
    "Verif.C172_level",
    "Verif.C172_level_f32"
   ],
   "note": "For every effect with the steady gain and fading properties that C123, C126 and C127 prove; the f32 statement takes the bounds of C129."
  },
  {
   "property": "C173",
   "status": "proved",
   "theorems": [
    "Verif.C173_network",
    "Verif.C173_generator",
    "Verif.C173_modifier",
    "Verif.C173_effects",
    "Verif.C173_sum",
    "Verif.C173_voices"
   ],
   "note": "Levels are whole numbers of steps of 2^-k up to 2^24 steps, which f32 represents. Filters are not covered by this rule, their peak gain exceeds 1; for them see C129 and C147."
  },
  {
   "property": "C174",
   "status": "proved",
   "theorems": [
    "Verif.C174_chain",
    "Verif.C174_exact",
    "Verif.C174_f32"
   ],
   "note": "SimpleSound multiplies by its gains directly, ComplexSound has gain blocks that first add to zero, so -0.0 becomes 0.0; the example has an input for which the two differ in this. Pausing and muting: C77, C78."
  },
  {
   "property": "C175",
   "status": "proved",
   "theorems": [
    "Verif.C175_local",
    "Verif.C175_together",
    "Verif.C175_plays"
   ],
   "note": "No hypothesis on the arithmetic or the blocks. C175_local also covers sounds with blocks in common (Arc::get_mut fails) and calls that panic. Sequential calls only; threads are outside the model, as every call takes &mut self."
  },
  {
   "property": "C176",
   "status": "proved",
   "theorems": [
    "Verif.C176_meter",
    "Verif.C176_meter_f32",
    "Verif.C176_voices"
   ],
   "note": "Chebyshev's inequality from the independence proved in C153; the bound on the share is not the best possible. Ideal random numbers as in C153. The meter itself (the sum of squares) is in exact arithmetic."
  },
  {
   "property": "C177",
   "status": "partial",
   "theorems": [
    "Verif.C177_sine",
    "Verif.C177_sawtooth",
    "Verif.C177_triangle",
    "Verif.C177_square",
    "Verif.C177_oscillators_exact",
    "Verif.C177_filters",
    "Verif.C177_corners_violated",
    "Verif.C177_gains",
    "Verif.C177_corners_partial"
   ],
   "note": "Violated for set_corner_frequencies (1000 Hz, quality 1: the centre moves); in exact arithmetic it holds there too."
  },
  {
   "property": "C178",
   "status": "partial",
   "theorems": [
    "Verif.C178_lowpass_highpass",
    "Verif.C178_bandpass",
    "Verif.C178_oscillators",
    "Verif.C178_gains",
    "Verif.C178_channel",
    "Verif.C178_corners_violated",
    "Verif.C178_corners_partial"
   ],
   "note": "Violated for BandPass corners of opposite sign (-100, 400): from_corners gives 200 Hz, set_corner_frequencies gives NaN. Proved for positive corners."
  },
  {
   "property": "C179",
   "status": "partial",
   "theorems": [
    "Verif.C179_volume",
    "Verif.C179_input",
    "Verif.C179_click",
    "Verif.C179_zero_volume_partial",
    "Verif.C179_zero_volume_violated"
   ],
   "note": "Violated in one respect: at volume zero an infinite sample becomes NaN, so volume zero is not mute; proved for finite samples. The rest is proved without restriction."
  },
  {
   "property": "C180",
   "status": "proved",
   "theorems": [
    "Verif.C180_course",
    "Verif.C180_stereo",
    "Verif.C180_release_again",
    "Verif.C180_release_after_end",
    "Verif.C180_linear",
    "Verif.C180_order"
   ],
   "note": "Releasing after the end assumes that the release slope is not NaN (0 + r <= 0); see C70 for when it is."
  },
  {
   "property": "C181",
   "status": "partial",
   "theorems": [
    "Verif.C181_effects",
    "Verif.C181_network",
    "Verif.C181_chain",
    "Verif.C181_nan_violated",
    "Verif.C181_filters_partial",
    "Verif.C181_delays_partial"
   ],
   "note": "Violated as to NaN: Gain::new(f32::INFINITY) turns silence into NaN. Zero or NaN is proved for all parameters; zero alone for coefficients that are numbers (Gain, Delay, Echo, LowPass, HighPass, BandPass, Envelope)."
  },
  {
   "property": "C182",
   "status": "proved",
   "theorems": [
    "Verif.C182_read",
    "Verif.C182_write",
    "Verif.C182_cut_in_frame"
   ],
   "note": "Reading: the first part is whole frames, the second may end within a frame. Writing: equal channel counts, equal lengths within each recording."
  },
  {
   "property": "C183",
   "status": "partial",
   "theorems": [
    "Verif.C183_stride",
    "Verif.C183_rate_exact",
    "Verif.C183_octaves_partial",
    "Verif.C183_violated"
   ],
   "note": "Equal strides give equal playback in any arithmetic; exact arithmetic has the property for all rates and speeds. In floating point it is proved for speeds 2^k, |k| <= 20, and rates from 1 to 2^30; rate 8000 at speed 7 violates it."
  }
 ]
}