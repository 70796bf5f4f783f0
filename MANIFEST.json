{
 "claims": [
  {
   "property": "C01",
   "status": "proved",
   "theorems": [
    "Edsp.Props.C01_ring_buffer_is_bounded_deque",
    "Edsp.Props.C01_filled_ring_buffer_is_bounded_deque"
   ],
   "note": "Observational equality with a bounded deque for every history, fresh and filled construction."
  },
  {
   "property": "C02",
   "status": "proved",
   "theorems": [
    "Edsp.Props.C02_last_n_values",
    "Edsp.Props.C02_last_n_values_filled"
   ],
   "note": "Last n values for every pushed sequence."
  },
  {
   "property": "C03",
   "status": "proved",
   "theorems": [
    "Edsp.Props.C03_faults_exactly",
    "Edsp.Props.C03_reads_stay_inside",
    "Edsp.Props.C03_capacity_zero"
   ],
   "note": "Faults characterised exactly for every reachable state; reads stay inside the storage."
  },
  {
   "property": "C04",
   "status": "partial",
   "theorems": [
    "Edsp.Props.C04_move_aliases_source",
    "Edsp.Props.C04_moved_to_dangles",
    "Edsp.Props.C04_no_move_partial",
    "Edsp.Props.C04_move_takes_contents_partial"
   ],
   "note": "Property is false of the code (two witnesses proved); proved for all histories without moves and for the instant after a move."
  },
  {
   "property": "C05",
   "status": "proved",
   "theorems": [
    "Edsp.Props.C05_clear_is_fresh",
    "Edsp.Props.C05_resize_is_fresh"
   ],
   "note": "clear/resize observationally equal to a fresh buffer for all later histories."
  },
  {
   "property": "C06",
   "status": "proved",
   "theorems": [
    "Edsp.Props.C06_difference_equation",
    "Edsp.Props.C06_constructor",
    "Edsp.Props.C06_unique",
    "Edsp.Props.C06_reported",
    "Edsp.Props.C06_transfer_function",
    "Edsp.Props.C06_response_is_filter"
   ],
   "note": "Every coefficient tuple, history and signal; uniqueness of the solution and transfer function as a power-series identity."
  },
  {
   "property": "C07",
   "status": "proved",
   "theorems": [
    "Edsp.Props.C07_chunks",
    "Edsp.Props.C07_sample_by_sample",
    "Edsp.Props.C07_reset",
    "Edsp.Props.C07_cascade"
   ],
   "note": "Any split into blocks, sample by sample, reset after any history; biquad and cascade."
  },
  {
   "property": "C08",
   "status": "proved",
   "theorems": [
    "Edsp.Props.C08_biquad_linear",
    "Edsp.Props.C08_biquad_time_invariant",
    "Edsp.Props.C08_cascade"
   ],
   "note": "Linearity and time invariance from rest, for biquads and for cascades after any history."
  },
  {
   "property": "C09",
   "status": "proved",
   "theorems": [
    "Edsp.Props.C09_stability_iff_poles",
    "Edsp.Props.C09_decay",
    "Edsp.Props.C09_tends_to_zero",
    "Edsp.Props.C09_bibo",
    "Edsp.Props.C09_unstable_does_not_decay"
   ],
   "note": "Root location iff, exponential decay, bounded output, and the converse for unstable filters (real arithmetic)."
  },
  {
   "property": "C10",
   "status": "partial",
   "theorems": [
    "Edsp.Props.C10_setters_partial",
    "Edsp.Props.C10_set_a0_ignored",
    "Edsp.Props.C10_set_a0_violates",
    "Edsp.Props.C10_scale"
   ],
   "note": "False for set_a0 (witness proved); proved for the five other setters after any history, and for the common factor."
  },
  {
   "property": "C11",
   "status": "partial",
   "theorems": [
    "Edsp.Props.C11_pair",
    "Edsp.Props.C11_pair_accepts",
    "Edsp.Props.C11_single_violates",
    "Edsp.Props.C11_single_partial"
   ],
   "note": "Proved for two poles and two zeros with exact acceptance condition; false for the one pole/zero constructor (witness proved), whose actual behaviour is characterised."
  },
  {
   "property": "C12",
   "status": "proved",
   "theorems": [
    "Edsp.Props.C12_history",
    "Edsp.Props.C12_size",
    "Edsp.Props.C12_fault_iff",
    "Edsp.Props.C12_composition",
    "Edsp.Props.C12_cleared",
    "Edsp.Props.C12_order_irrelevant"
   ],
   "note": "Refinement to a list of stages for every history; size, fault condition, composition, clearing, order."
  },
  {
   "property": "C13",
   "status": "partial",
   "theorems": [
    "Edsp.Props.C13_moving_average_partial",
    "Edsp.Props.C13_spec_unfolded",
    "Edsp.Props.C13_reset_violates",
    "Edsp.Props.C13_resize_violates",
    "Edsp.Props.C13_size"
   ],
   "note": "Window mean proved for every capacity and history without reset/resize-after-use; reset and resize violate it (witnesses proved)."
  },
  {
   "property": "C14",
   "status": "partial",
   "theorems": [
    "Edsp.Props.C14_moving_rms_partial",
    "Edsp.Props.C14_resize_violates"
   ],
   "note": "Window RMS proved likewise; resize violates it (witness proved)."
  },
  {
   "property": "C15",
   "status": "partial",
   "theorems": [
    "Edsp.Props.C15_median_violates",
    "Edsp.Props.C15_median_partial",
    "Edsp.Props.C15_moving_median_violates"
   ],
   "note": "False of the code: median is a stub returning the first/constant value (witnesses proved); the part that holds is proved."
  },
  {
   "property": "C16",
   "status": "proved",
   "theorems": [
    "Edsp.Props.C16_low_pass_prototype",
    "Edsp.Props.C16_high_pass_prototype",
    "Edsp.Props.C16_band_pass_prototype",
    "Edsp.Props.C16_all_pass_prototype",
    "Edsp.Props.C16_low_shelf_prototype",
    "Edsp.Props.C16_high_shelf_prototype",
    "Edsp.Props.C16_low_pass",
    "Edsp.Props.C16_high_pass",
    "Edsp.Props.C16_band_pass",
    "Edsp.Props.C16_all_pass",
    "Edsp.Props.C16_low_shelf",
    "Edsp.Props.C16_high_shelf"
   ],
   "note": "All six designs, all fs, 0<fc<fs/2, Q>0: stable, gains at DC, Nyquist and at the design frequency; all-pass has gain 1 everywhere (real arithmetic)."
  },
  {
   "property": "C17",
   "status": "partial",
   "theorems": [
    "Edsp.Props.C17_low_pass_prototype",
    "Edsp.Props.C17_high_pass_prototype",
    "Edsp.Props.C17_band_pass_prototype",
    "Edsp.Props.C17_low_shelf_boost_prototype_partial",
    "Edsp.Props.C17_high_shelf_boost_prototype_partial",
    "Edsp.Props.C17_low_pass",
    "Edsp.Props.C17_high_pass",
    "Edsp.Props.C17_band_pass",
    "Edsp.Props.C17_low_shelf_boost_partial",
    "Edsp.Props.C17_low_shelf_cut_violates",
    "Edsp.Props.C17_high_shelf_boost_partial",
    "Edsp.Props.C17_high_shelf_cut_violates"
   ],
   "note": "Low/high/band-pass and both boost shelves proved; both cut shelves violate the claim (low shelf cut boosts for every parameter; high shelf cut witness)."
  },
  {
   "property": "C18",
   "status": "proved",
   "theorems": [
    "Edsp.Props.C18_lowpass_map",
    "Edsp.Props.C18_highpass_map",
    "Edsp.Props.C18_conjugate_section"
   ],
   "note": ""
  },
  {
   "property": "C19",
   "status": "partial",
   "theorems": [
    "Edsp.Props.C19_prototype",
    "Edsp.Props.C19_odd_debug_violates"
   ],
   "note": "odd orders fail an assertion in debug builds; proved for release builds and even orders"
  },
  {
   "property": "C20",
   "status": "partial",
   "theorems": [
    "Edsp.Props.C20_contents",
    "Edsp.Props.C20_insert_conjugate_defined",
    "Edsp.Props.C20_insert_defined",
    "Edsp.Props.C20_size_partial",
    "Edsp.Props.C20_size_violates"
   ],
   "note": "size() reports one stage too many for even pole counts"
  },
  {
   "property": "C21",
   "status": "proved",
   "theorems": [
    "Edsp.Props.C21_clipper",
    "Edsp.Props.C21_fixes_in_range",
    "Edsp.Props.C21_idempotent",
    "Edsp.Props.C21_monotone",
    "Edsp.Props.C21_amplifier",
    "Edsp.Props.C21_amplifier_clip"
   ],
   "note": ""
  },
  {
   "property": "C22",
   "status": "proved",
   "theorems": [
    "Edsp.Props.C22_linspace",
    "Edsp.Props.C22_endpoints",
    "Edsp.Props.C22_one",
    "Edsp.Props.C22_none",
    "Edsp.Props.C22_out_of_range",
    "Edsp.Props.C22_integer_output_violates",
    "Edsp.Props.C22_logspace"
   ],
   "note": "Floating-point output in exact arithmetic; integral output shown as violation."
  },
  {
   "property": "C23",
   "status": "proved",
   "theorems": [
    "Edsp.Props.C23_safe",
    "Edsp.Props.C23_binary_search",
    "Edsp.Props.C23_c_binary_search"
   ],
   "note": ""
  },
  {
   "property": "C24",
   "status": "partial",
   "theorems": [
    "Edsp.Props.C24_linear_search",
    "Edsp.Props.C24_searches_agree",
    "Edsp.Props.C24_index_of_partial",
    "Edsp.Props.C24_index_of_violates",
    "Edsp.Props.C24_c_interface"
   ],
   "note": "index_of wraps for offsets from 2^31 on (violation shown); everything else proved."
  },
  {
   "property": "C25",
   "status": "proved",
   "theorems": [
    "Edsp.Props.C25_padder",
    "Edsp.Props.C25_padder_short",
    "Edsp.Props.C25_concatenate",
    "Edsp.Props.C25_concatenate_short"
   ],
   "note": "Short outputs shown to overrun."
  },
  {
   "property": "C26",
   "status": "partial",
   "theorems": [
    "Edsp.Props.C26_normalize",
    "Edsp.Props.C26_normalize_again",
    "Edsp.Props.C26_normalize_zero",
    "Edsp.Props.C26_normalize_rms_violates"
   ],
   "note": "normalize proved; normalize_rms is violated on every input."
  },
  {
   "property": "C27",
   "status": "partial",
   "theorems": [
    "Edsp.C27.C27_split",
    "Edsp.C27.C27_split_pieces",
    "Edsp.C27.C27_join_partial",
    "Edsp.C27.C27_join_split_partial",
    "Edsp.C27.C27_split_join_split_partial",
    "Edsp.C27.C27_join_violates"
   ],
   "note": "Full statement for pieces without NUL characters; join truncates at NUL (C27_join_violates)."
  },
  {
   "property": "C28",
   "status": "partial",
   "theorems": [
    "Edsp.C28.C28_ltrim_partial",
    "Edsp.C28.C28_rtrim_partial",
    "Edsp.C28.C28_trim_partial",
    "Edsp.C28.C28_unique",
    "Edsp.C28.C28_idempotent_partial",
    "Edsp.C28.C28_commute_partial",
    "Edsp.C28.C28_trim_violates",
    "Edsp.C28.C28_case_partial"
   ],
   "note": "For strings without negative character codes; negative codes are undefined behaviour (C28_trim_violates)."
  },
  {
   "property": "C29",
   "status": "partial",
   "theorems": [
    "Edsp.C29.C29_is_power_two_partial",
    "Edsp.C29.C29_is_power_two_violates",
    "Edsp.C29.C29_next_power_two",
    "Edsp.C29.C29_next_power_two_overflow"
   ],
   "note": "All int32 values except the least one, where x-1 overflows (C29_is_power_two_violates)."
  },
  {
   "property": "C30",
   "status": "partial",
   "theorems": [
    "Edsp.C30.C30_is_prime_value",
    "Edsp.C30.C30_is_prime_partial",
    "Edsp.C30.C30_is_prime_violates",
    "Edsp.C30.C30_parity_partial",
    "Edsp.C30.C30_parity_violates"
   ],
   "note": "Exact characterisation of what is_prime and is_odd compute; the classification is wrong for primes > 3 and for negative odd numbers."
  },
  {
   "property": "C31",
   "status": "proved",
   "theorems": [
    "Edsp.C31.C31_mean",
    "Edsp.C31.C31_moment",
    "Edsp.C31.C31_moment_zero_violates",
    "Edsp.C31.C31_c_moment_partial",
    "Edsp.C31.C31_c_moment_violates",
    "Edsp.C31.C31_variance",
    "Edsp.C31.C31_empty",
    "Edsp.C31.C31_standard_deviation",
    "Edsp.C31.C31_norm"
   ],
   "note": "Orders n >= 1 as stated; moment<0> and C orders above 8 are shown separately as deviations."
  },
  {
   "property": "C32",
   "status": "proved",
   "theorems": [
    "Edsp.C31.C32_kurtosis",
    "Edsp.C31.C32_skewness",
    "Edsp.C31.C32_pearson",
    "Edsp.C31.C32_constant"
   ],
   "note": ""
  },
  {
   "property": "C33",
   "status": "proved",
   "theorems": [
    "Edsp.C33.C33_definitions",
    "Edsp.C33.C33_ordered",
    "Edsp.C33.C33_generalized",
    "Edsp.C33.C33_domain"
   ],
   "note": ""
  },
  {
   "property": "C34",
   "status": "partial",
   "theorems": [
    "Edsp.Props.C34_max_min",
    "Edsp.Props.C34_empty",
    "Edsp.Props.C34_peak",
    "Edsp.Props.C34_maxabs_minabs",
    "Edsp.Props.C34_peakabs",
    "Edsp.Props.C34_c_peak",
    "Edsp.Props.C34_c_peak_abs_partial",
    "Edsp.Props.C34_c_peak_abs_violates"
   ],
   "note": "The C binding peak_abs is violated; everything else proved."
  },
  {
   "property": "C35",
   "status": "partial",
   "theorems": [
    "Edsp.C33.C35_peak2peak_partial",
    "Edsp.C33.C35_peak2peak_violates",
    "Edsp.C33.C35_peak2rms_partial",
    "Edsp.C33.C35_peak2rms_violates"
   ],
   "note": "Holds where max and min are both non-negative (peak2peak); violations proved for both."
  },
  {
   "property": "C36",
   "status": "partial",
   "theorems": [
    "Edsp.C36.C36_decibel",
    "Edsp.C36.C36_decibel_domain",
    "Edsp.C36.C36_angle",
    "Edsp.C36.C36_mel",
    "Edsp.C36.C36_erb",
    "Edsp.C36.C36_cent_partial",
    "Edsp.C36.C36_cent_violates"
   ],
   "note": "All pairs except cents below 440*2^(-4.75) Hz, where the round trip fails (C36_cent_violates)."
  },
  {
   "property": "C37",
   "status": "proved",
   "theorems": [
    "Edsp.C36.C37_bark_round_trip",
    "Edsp.C36.C37_bark_monotone",
    "Edsp.C36.C37_bark_pole"
   ],
   "note": ""
  },
  {
   "property": "C38",
   "status": "partial",
   "theorems": [
    "Edsp.C38.C38_values_partial",
    "Edsp.C38.C38_welch_odd_partial",
    "Edsp.C38.C38_welch_violates",
    "Edsp.C38.C38_one",
    "Edsp.C38.C38_symmetric",
    "Edsp.C38.C38_bounded",
    "Edsp.C38.C38_centre"
   ],
   "note": "All windows but welch equal their textbook formula for every N>=2; welch only for odd N (violated for even N); N=1 divides by zero; flattop peaks above 1."
  },
  {
   "property": "C39",
   "status": "partial",
   "theorems": [
    "Edsp.C39.C39_call",
    "Edsp.C39.C39_samples",
    "Edsp.C39.C39_chunks",
    "Edsp.C39.C39_bounded",
    "Edsp.C39.C39_periodic",
    "Edsp.C39.C39_triangular",
    "Edsp.C39.C39_negative_time_violates"
   ],
   "note": "Timestamp, sample values, chunking, bounds and periodicity for all reachable states with non-negative time; negative times violate the bound of the sawtooth."
  },
  {
   "property": "C40",
   "status": "partial",
   "theorems": [
    "Edsp.C39.C40_duty_partial",
    "Edsp.C39.C40_frequency_violates",
    "Edsp.C39.C40_inverted_violates"
   ],
   "note": "duty() is the last duty set for every history without set_frequency; violated by set_frequency, and the output is high for 1-duty of the period."
  },
  {
   "property": "C41",
   "status": "partial",
   "theorems": [
    "Edsp.C41.C41_bounded",
    "Edsp.C41.C41_idle",
    "Edsp.C41.C41_phases",
    "Edsp.C41.C41_note_partial",
    "Edsp.C41.C41_release",
    "Edsp.C41.C41_sustain",
    "Edsp.C41.C41_retrigger_violates"
   ],
   "note": "Bounds, phase order, sustain, release, idle silence and the closed form of a note for all histories; a second key_on before key_off violates the attack."
  },
  {
   "property": "C42",
   "status": "partial",
   "theorems": [
    "Edsp.C42.C42_output_partial",
    "Edsp.C42.C42_violates"
   ],
   "note": "The gains are zero in every reachable state: the output is the level itself, and no follower smooths (violation proved for all reachable states)."
  },
  {
   "property": "C43",
   "status": "partial",
   "theorems": [
    "Edsp.C43.C43_audiofile",
    "Edsp.C43.C43_audiofile_is_open",
    "Edsp.C43.C43_sndfile_partial",
    "Edsp.C43.C43_sndfile_violates",
    "Edsp.C43.C43_copy_violates"
   ],
   "note": "libaudiofile proved for all histories; libsndfile exactly for histories without close() of an open file, all others proved to fail; copies violate it."
  },
  {
   "property": "C44",
   "status": "partial",
   "theorems": [
    "Edsp.C44.C44_read",
    "Edsp.C44.C44_consecutive",
    "Edsp.C44.C44_audiofile_violates",
    "Edsp.C44.C44_audiofile_skips_violates",
    "Edsp.C44.C44_audiofile_mono_partial"
   ],
   "note": "Proved for the libsndfile decoder for all sizes and short reads; the libaudiofile decoder violates it for several channels."
  },
  {
   "property": "C45",
   "status": "partial",
   "theorems": [
    "Edsp.Spectral.C45_cdft",
    "Edsp.Spectral.C45_dft",
    "Edsp.Spectral.C45_bins",
    "Edsp.Spectral.C45_redundant",
    "Edsp.Spectral.C45_cidft_cdft",
    "Edsp.Spectral.C45_cdft_cidft",
    "Edsp.Spectral.C45_idft_dft_partial",
    "Edsp.Spectral.C45_odd_violates",
    "Edsp.Spectral.C45_one_violates",
    "Edsp.Spectral.C45_sizes",
    "Edsp.Spectral.C45_dft_idft_partial",
    "Edsp.Spectral.C45_imaginary_violates",
    "Edsp.Spectral.C45_empty"
   ],
   "note": "Sums, redundancy and complex round trips proved for every size; real round trip proved for even sizes, its failure for odd sizes and size 1 proved. FFTW enters by its documented contract."
  },
  {
   "property": "C46",
   "status": "partial",
   "theorems": [
    "Edsp.Spectral.C46_conv",
    "Edsp.Spectral.C46_empty",
    "Edsp.Spectral.C46_long_violates",
    "Edsp.Spectral.C46_dft_long_violates",
    "Edsp.Spectral.C46_comm",
    "Edsp.Spectral.C46_impulse",
    "Edsp.Spectral.C46_xcorr_partial",
    "Edsp.Spectral.C46_autocorr_partial",
    "Edsp.Spectral.C46_auto_is_cross",
    "Edsp.Spectral.C46_peak",
    "Edsp.Spectral.C46_biased_violates",
    "Edsp.Spectral.C46_unbiased_violates"
   ],
   "note": "Convolution proved in full; correlation proved for None; the Biased and Unbiased scalings of the code are proved to differ from the documented ones."
  },
  {
   "property": "C47",
   "status": "partial",
   "theorems": [
    "Edsp.Spectral.C47_one_kind_partial",
    "Edsp.Spectral.C47_inverse_violates",
    "Edsp.Spectral.C47_idct_violates",
    "Edsp.Spectral.C47_mixed_violates"
   ],
   "note": "Proved for histories of one kind of transform; three theorems prove the failure for mixed histories."
  },
  {
   "property": "C48",
   "status": "partial",
   "theorems": [
    "Edsp.Lee.C48_forward",
    "Edsp.Lee.C48_inverse",
    "Edsp.Lee.C48_engine_dct",
    "Edsp.Lee.C48_engine_idct",
    "Edsp.Lee.C48_agree",
    "Edsp.Lee.C48_round_trip",
    "Edsp.Lee.C48_multiple_violates",
    "Edsp.Lee.C48_dht_partial",
    "Edsp.Lee.C48_dht_violates"
   ],
   "note": "Proved for powers of two (both directions, agreement with FFTW contract, round trip); failure for the accepted sizes 48*2^e proved; Hartley loop proved wrong unless the first sample is 0."
  },
  {
   "property": "C49",
   "status": "partial",
   "theorems": [
    "Edsp.Feature.C49_centroid",
    "Edsp.Feature.C49_weighted_centroid",
    "Edsp.Feature.C49_spread",
    "Edsp.Feature.C49_weighted_spread",
    "Edsp.Feature.C49_spread_formula_violates",
    "Edsp.Feature.C49_crest",
    "Edsp.Feature.C49_flatness",
    "Edsp.Feature.C49_entropy",
    "Edsp.Feature.C49_spectral_entropy",
    "Edsp.Feature.C49_entropy_zero_violates",
    "Edsp.Feature.C49_entropy_one_violates"
   ],
   "note": "All ranges proved; entropy is violated by zero lines and by one line, spread returns the root of the documented value."
  },
  {
   "property": "C50",
   "status": "partial",
   "theorems": [
    "Edsp.Feature.C50_rolloff_partial",
    "Edsp.Feature.C50_least_partial",
    "Edsp.Feature.C50_monotone",
    "Edsp.Feature.C50_scale",
    "Edsp.Feature.C50_tie_violates"
   ],
   "note": "Least index and monotonicity proved away from exact ties; at a tie the next index is returned (C50_tie_violates)."
  },
  {
   "property": "C51",
   "status": "partial",
   "theorems": [
    "Edsp.Feature.C51_amdf",
    "Edsp.Feature.C51_asdf",
    "Edsp.Feature.C51_period",
    "Edsp.Feature.C51_difference_empty",
    "Edsp.Feature.C51_azcr_partial",
    "Edsp.Feature.C51_azcr_violates",
    "Edsp.Feature.C51_energy",
    "Edsp.Feature.C51_rms_violates",
    "Edsp.Feature.C51_duration",
    "Edsp.Feature.C51_leq",
    "Edsp.Feature.C51_loudness"
   ],
   "note": "All but rms and azcr proved in full; rms violated for every input, azcr for samples that are 0."
  },
  {
   "property": "C52",
   "status": "partial",
   "theorems": [
    "Edsp.Feature.C52_decrease_violates",
    "Edsp.Feature.C52_slope_violates",
    "Edsp.Feature.C52_slope_flat_violates",
    "Edsp.Feature.C52_flux_partial",
    "Edsp.Feature.C52_flux_violates",
    "Edsp.Feature.C52_flux_manhattan_violates",
    "Edsp.Feature.C52_flux_logarithmic_violates",
    "Edsp.Feature.C52_variation_partial",
    "Edsp.Feature.C52_variation_violates",
    "Edsp.Feature.C52_irregularity_violates",
    "Edsp.Feature.C52_irregularity_flat_violates",
    "Edsp.Feature.C52_snr_partial",
    "Edsp.Feature.C52_snr_violates"
   ],
   "note": "Every formula is violated; closed forms of the results and the agreeing inputs are proved."
  },
  {
   "property": "C53",
   "status": "partial",
   "theorems": [
    "Edsp.Noise.C53_brown",
    "Edsp.Noise.C53_brown_filter",
    "Edsp.Noise.C53_pink",
    "Edsp.Noise.C53_pink_filter",
    "Edsp.Noise.C53_range_violates",
    "Edsp.Noise.C53_brown_silent_violates",
    "Edsp.Noise.C53_pink_silent_violates"
   ],
   "note": "Bounds and filter forms proved; the intervals of the constructor are left and integer samples give silence."
  },
  {
   "property": "C54",
   "status": "partial",
   "theorems": [
    "Edsp.Environ.C54_atomic_partial",
    "Edsp.Environ.C54_progress_partial",
    "Edsp.Environ.C54_set_get_partial",
    "Edsp.Environ.C54_exist_partial",
    "Edsp.Environ.C54_view_violates",
    "Edsp.Environ.C54_part_violates",
    "Edsp.Environ.C54_null_violates",
    "Edsp.Environ.C54_invalid_violates"
   ],
   "note": "Proved for views that cover their text and names without '='; violated otherwise and by the lifetime of the returned view."
  },
  {
   "property": "C55",
   "status": "partial",
   "theorems": [
    "Edsp.Props.C55_butterworth_lowpass",
    "Edsp.Props.C55_butterworth_lowpass_cutoff",
    "Edsp.Props.C55_odd_debug_violates"
   ],
   "note": "odd orders fail an assertion in debug builds (violation proved); proved for every order in release builds and every even order"
  },
  {
   "property": "C56",
   "status": "partial",
   "theorems": [
    "Edsp.Props.C56_butterworth_highpass"
   ],
   "note": "same debug-build violation for odd orders"
  },
  {
   "property": "C57",
   "status": "partial",
   "theorems": [
    "Edsp.Props.C57_chebyshev1_lowpass",
    "Edsp.Props.C57_chebyshev1_lowpass_ripple",
    "Edsp.Props.C57_chebyshev1_highpass",
    "Edsp.Props.C57_odd_debug_violates"
   ],
   "note": "same debug-build violation for odd orders"
  },
  {
   "property": "C58",
   "status": "partial",
   "theorems": [
    "Edsp.Props.C58_chebyshev2_lowpass",
    "Edsp.Props.C58_chebyshev2_lowpass_stopband",
    "Edsp.Props.C58_chebyshev2_highpass"
   ],
   "note": "same debug-build violation for odd orders"
  },
  {
   "property": "C59",
   "status": "proved",
   "theorems": [
    "Edsp.Props.C59_butterworth_low_shelf",
    "Edsp.Props.C59_butterworth_high_shelf"
   ],
   "note": ""
  },
  {
   "property": "C60",
   "status": "proved",
   "theorems": [
    "Edsp.Props.C60_rounding",
    "Edsp.Props.C60_unique"
   ],
   "note": "Exact arithmetic."
  },
  {
   "property": "C61",
   "status": "proved",
   "theorems": [
    "Edsp.Props.C61_rectify",
    "Edsp.Props.C61_derivative",
    "Edsp.Props.C61_derivative_inverse"
   ],
   "note": ""
  },
  {
   "property": "C62",
   "status": "partial",
   "theorems": [
    "Edsp.C30.C62_sign_half_inv",
    "Edsp.C30.C62_fract",
    "Edsp.C30.C62_distance_partial",
    "Edsp.C30.C62_distance_violates",
    "Edsp.C30.C62_logarithmic"
   ],
   "note": "All except the two distances, whose violations are proved."
  },
  {
   "property": "C63",
   "status": "partial",
   "theorems": [
    "Edsp.C63.C63_space_partial",
    "Edsp.C63.C63_spacing_violates"
   ],
   "note": "Everything but uniform spacing on the scale, which is violated (C63_spacing_violates)."
  },
  {
   "property": "C64",
   "status": "proved",
   "theorems": [
    "Edsp.C63.C64_complex_round_trip"
   ],
   "note": ""
  },
  {
   "property": "C65",
   "status": "partial",
   "theorems": [
    "Edsp.C41.C65_attack",
    "Edsp.C41.C65_release",
    "Edsp.C41.C65_getters_partial",
    "Edsp.C41.C65_release_rate_violates",
    "Edsp.C41.C65_target_violates"
   ],
   "note": "Times proved exact; release_rate() and the attack target of later notes violate it."
  },
  {
   "property": "C66",
   "status": "partial",
   "theorems": [
    "Edsp.C44.C66_write_partial",
    "Edsp.C44.C66_round_trip_partial",
    "Edsp.C44.C66_empty_violates",
    "Edsp.C44.C66_long_violates"
   ],
   "note": "Non-empty ranges of fewer than 2^31 samples; others violate it."
  },
  {
   "property": "C67",
   "status": "proved",
   "theorems": [
    "Edsp.Spectral.C67_analytic",
    "Edsp.Spectral.C67_determined",
    "Edsp.Spectral.C67_tone",
    "Edsp.Spectral.C67_empty"
   ],
   "note": ""
  },
  {
   "property": "C68",
   "status": "proved",
   "theorems": [
    "Edsp.Spectral.C68_spectrum",
    "Edsp.Spectral.C68_empty",
    "Edsp.Spectral.C68_energy",
    "Edsp.Spectral.C68_scale",
    "Edsp.Spectral.C68_shift"
   ],
   "note": ""
  },
  {
   "property": "C69",
   "status": "partial",
   "theorems": [
    "Edsp.Spectral.C69_hartley",
    "Edsp.Spectral.C69_hartley_bin",
    "Edsp.Spectral.C69_hartley_twice",
    "Edsp.Spectral.C69_dct",
    "Edsp.Spectral.C69_idct",
    "Edsp.Spectral.C69_idct_dct",
    "Edsp.Spectral.C69_dct_idct",
    "Edsp.Spectral.C69_dct_violates"
   ],
   "note": "violated: dct stores twice and idct 1/n of the documented sums; everything else proved"
  },
  {
   "property": "C70",
   "status": "partial",
   "theorems": [
    "Edsp.Spectral.C70_cepstrum_partial",
    "Edsp.Spectral.C70_zero_bin_violates",
    "Edsp.Spectral.C70_no_mean_violates",
    "Edsp.Spectral.C70_empty",
    "Edsp.Spectral.C70_level",
    "Edsp.Spectral.C70_documented_violates"
   ],
   "note": "violated: a zero bin of the padded transform gives log 0; the documented squares are not taken; proved whenever no bin vanishes"
  },
  {
   "property": "C71",
   "status": "partial",
   "theorems": [
    "Edsp.Props.C71_butterworth_bandpass_partial",
    "Edsp.Props.C71_butterworth_bandpass_edges_partial",
    "Edsp.Props.C71_centre_gain_violates",
    "Edsp.Props.C71_chebyshev1_bandpass_partial",
    "Edsp.Props.C71_chebyshev2_bandpass_partial",
    "Edsp.Props.C71_odd_debug_violates",
    "Edsp.Props.C71_cheb_odd_debug_violates"
   ],
   "note": "Response proved up to one constant factor; the factor is not 1 (C71_centre_gain_violates). In debug builds every odd order aborts (C71_odd_debug_violates, C71_cheb_odd_debug_violates); the response is proved for all even orders and, in release builds, for odd orders."
  },
  {
   "property": "C72",
   "status": "partial",
   "theorems": [
    "Edsp.Props.C72_butterworth_bandstop_partial",
    "Edsp.Props.C72_edges_violates",
    "Edsp.Props.C72_chebyshev1_bandstop_partial",
    "Edsp.Props.C72_chebyshev2_bandstop_partial"
   ],
   "note": "Response proved up to a factor on the frequency; the edges are therefore not at -3 dB (C72_edges_violates). In debug builds every odd order aborts (C71_odd_debug_violates, C71_cheb_odd_debug_violates, listed under C71)."
  },
  {
   "property": "C73",
   "status": "partial",
   "theorems": [
    "Edsp.Props.C73_butterworth_band_shelf_partial",
    "Edsp.Props.C73_odd_debug_violates"
   ],
   "note": "Proved for every order, band and gain, in both builds, except for odd orders in debug builds when the gain or its inverse is exactly (1/tan(pi bw/fs))^(2n): there a contract check fails (negation proved)."
  },
  {
   "property": "C74",
   "status": "partial",
   "theorems": [
    "Edsp.Props.C74_low_shelf_partial",
    "Edsp.Props.C74_low_shelf_ripple_partial",
    "Edsp.Props.C74_high_shelf_partial",
    "Edsp.Props.C74_band_shelf_partial",
    "Edsp.Props.C74_odd_debug_violates",
    "Edsp.Props.C74_zero_gain_violates",
    "Edsp.Props.C74_large_ripple_violates",
    "Edsp.Props.C74_large_ripple_boost_violates"
   ],
   "note": "Proved for every ripple strictly between 0 and |gain| dB. Violated, with negations proved: 0 dB; ripples not smaller than the cut or boost; band shelves of odd order in debug builds whose single pole or zero is mapped to 0 (contract check)."
  },
  {
   "property": "C75",
   "status": "proved",
   "theorems": [
    "Edsp.Props.C75_section",
    "Edsp.Props.C75_cascade",
    "Edsp.Props.C75_amplitude",
    "Edsp.Props.C75_butterworth_cutoff"
   ],
   "note": ""
  },
  {
   "property": "C76",
   "status": "proved",
   "theorems": [
    "Edsp.Props.C76_values",
    "Edsp.Props.C76_defined",
    "Edsp.Props.C76_meaning",
    "Edsp.Props.C76_prediction"
   ],
   "note": ""
  },
  {
   "property": "C77",
   "status": "partial",
   "theorems": [
    "Edsp.Props.C77_room_partial",
    "Edsp.Props.C77_counter_violates",
    "Edsp.Props.C77_documented_size_violates",
    "Edsp.Props.C77_short_blocks_violates",
    "Edsp.Props.C77_zero_channels_violates",
    "Edsp.Props.C77_copy_violates",
    "Edsp.Props.C77_ownership_partial"
   ],
   "note": "Room, counters and ownership proved for the conditions under which they hold; counters with several channels, the documented size, short blocks, zero channels and copies are violated."
  },
  {
   "property": "C78",
   "status": "partial",
   "theorems": [
    "Edsp.Props.C78_mono_partial",
    "Edsp.Props.C78_channels_violates"
   ],
   "note": "Proved for one channel; violated for more."
  },
  {
   "property": "C79",
   "status": "partial",
   "theorems": [
    "Edsp.Props.C79_find_partial",
    "Edsp.Props.C79_find_violates",
    "Edsp.Props.C79_rfind",
    "Edsp.Props.C79_find_first_of",
    "Edsp.Props.C79_find_first_not_of",
    "Edsp.Props.C79_find_last_of_partial",
    "Edsp.Props.C79_find_last_not_of_partial",
    "Edsp.Props.C79_find_last_violates"
   ],
   "note": "find fails for an empty text at the end; find_last_of and find_last_not_of do not return on an empty view (both proved)"
  },
  {
   "property": "C80",
   "status": "partial",
   "theorems": [
    "Edsp.Props.C80_substr",
    "Edsp.Props.C80_compare",
    "Edsp.Props.C80_compare_parts",
    "Edsp.Props.C80_starts_with",
    "Edsp.Props.C80_ends_with",
    "Edsp.Props.C80_access",
    "Edsp.Props.C80_remove",
    "Edsp.Props.C80_remove_unchecked",
    "Edsp.Props.C80_copy",
    "Edsp.Props.C80_cstring",
    "Edsp.Props.C80_output_partial",
    "Edsp.Props.C80_output_violates"
   ],
   "note": "printing to a stream without adjustment flags pads on the wrong side (proved); the rest is proved"
  },
  {
   "property": "C81",
   "status": "partial",
   "theorems": [
    "Edsp.Props.C81_elements",
    "Edsp.Props.C81_construction",
    "Edsp.Props.C81_parts",
    "Edsp.Props.C81_within_partial",
    "Edsp.Props.C81_overflow_violates",
    "Edsp.Props.C81_extent_violates"
   ],
   "note": "the check of subspan overflows for large counts and fixed extents accept fewer elements (both proved)"
  },
  {
   "property": "C82",
   "status": "partial",
   "theorems": [
    "Edsp.Props.C82_optional_partial",
    "Edsp.Props.C82_copy_violates",
    "Edsp.Props.C82_observe",
    "Edsp.Props.C82_compare"
   ],
   "note": "throwing copy assignments of types with noexcept moves (negation proved)"
  },
  {
   "property": "C83",
   "status": "partial",
   "theorems": [
    "Edsp.Props.C83_expected_partial",
    "Edsp.Props.C83_nothing_left",
    "Edsp.Props.C83_chain_violates",
    "Edsp.Props.C83_throw_violates"
   ],
   "note": "throwing moves, chained assignments (negations proved)"
  },
  {
   "property": "C84",
   "status": "partial",
   "theorems": [
    "Edsp.Props.C84_contiguous_partial",
    "Edsp.Props.C84_rank",
    "Edsp.Props.C84_step_violates",
    "Edsp.Props.C84_reversed_violates",
    "Edsp.Props.C84_integers_violates",
    "Edsp.Props.C84_large_integers_violates",
    "Edsp.Props.C84_negative_integers_violates",
    "Edsp.Props.C84_large_violates"
   ],
   "note": "strides, other types, large sizes (negations proved)"
  },
  {
   "property": "C85",
   "status": "partial",
   "theorems": [
    "Edsp.Props.C85_pairs_partial",
    "Edsp.Props.C85_dimensions_partial",
    "Edsp.Props.C85_shorter_violates",
    "Edsp.Props.C85_longer_violates",
    "Edsp.Props.C85_rank_violates"
   ],
   "note": "different lengths, dimensions (negations proved)"
  },
  {
   "property": "C86",
   "status": "partial",
   "theorems": [
    "Edsp.Props.C86_real2complex_violates",
    "Edsp.Props.C86_read_partial",
    "Edsp.Props.C86_end_violates",
    "Edsp.Props.C86_shape_violates",
    "Edsp.Props.C86_environment_partial",
    "Edsp.Props.C86_environment_violates"
   ],
   "note": "negations proved"
  },
  {
   "property": "C87",
   "status": "partial",
   "theorems": [
    "Edsp.Props.C87_printed_partial",
    "Edsp.Props.C87_level_violates",
    "Edsp.Props.C87_endl_violates",
    "Edsp.Props.C87_view_violates",
    "Edsp.Props.C87_overrun_violates",
    "Edsp.Props.C87_null_violates"
   ],
   "note": "levels, files, views, tab and endl, null characters (negations proved)"
  },
  {
   "property": "C88",
   "status": "partial",
   "theorems": [
    "Edsp.Props.C88_names_partial",
    "Edsp.Props.C88_fft_violates",
    "Edsp.Props.C88_encoder_violates",
    "Edsp.Props.C88_date_violates",
    "Edsp.Props.C88_tags_partial",
    "Edsp.Props.C88_tags_violates"
   ],
   "note": "PFFFT, encoder, date, unreadable files (negations proved)"
  },
  {
   "property": "C89",
   "status": "partial",
   "theorems": [
    "Edsp.Feature.C89_level_partial",
    "Edsp.Feature.C89_levels_violates",
    "Edsp.Feature.C89_start_violates",
    "Edsp.Feature.C89_silent_violates"
   ],
   "note": "frames of different levels, start, silence (negations proved)"
  },
  {
   "property": "C90",
   "status": "partial",
   "theorems": [
    "Edsp.PySpectral.C90_real_partial",
    "Edsp.PySpectral.C90_spectrum_partial",
    "Edsp.PySpectral.C90_cepstrum_partial",
    "Edsp.PySpectral.C90_rfft_partial",
    "Edsp.PySpectral.C90_hilbert_partial",
    "Edsp.PySpectral.C90_pair_partial",
    "Edsp.PySpectral.C90_short_violates",
    "Edsp.PySpectral.C90_complex_partial",
    "Edsp.PySpectral.C90_irfft_partial",
    "Edsp.PySpectral.C90_complex_round_trip",
    "Edsp.PySpectral.C90_real_round_trip_partial",
    "Edsp.PySpectral.C90_odd_violates",
    "Edsp.PySpectral.C90_cosine_round_trip",
    "Edsp.PySpectral.C90_real_fft_violates",
    "Edsp.PySpectral.C90_real_irfft_violates",
    "Edsp.PySpectral.C90_complex_rfft_violates"
   ],
   "note": "see the _violates theorems"
  },
  {
   "property": "C91",
   "status": "partial",
   "theorems": [
    "Edsp.PyCreate.C91_mapping_partial",
    "Edsp.PyCreate.C91_normalize_partial",
    "Edsp.PyCreate.C91_spaced_partial",
    "Edsp.PyCreate.C91_windows_partial",
    "Edsp.PyCreate.C91_pad_partial",
    "Edsp.PyCreate.C91_pad_violates",
    "Edsp.PyCreate.C91_uninitialised_violates",
    "Edsp.PyCreate.C91_negative"
   ],
   "note": "see the _violates theorems"
  },
  {
   "property": "C92",
   "status": "partial",
   "theorems": [
    "Edsp.Rounded.C92_exact_partial",
    "Edsp.Rounded.C92_error_partial",
    "Edsp.Rounded.C92_average_violates",
    "Edsp.Rounded.C92_rms_violates",
    "Edsp.Rounded.C92_rms_partial",
    "Edsp.Rounded.C92_rms_number_partial"
   ],
   "note": "Exact on a grid and bounded by the length; false in general (violations proved)."
  },
  {
   "property": "C93",
   "status": "partial",
   "theorems": [
    "Edsp.Rounded.C93_stop_violates",
    "Edsp.Rounded.C93_clock_violates",
    "Edsp.Rounded.C93_pitch_violates",
    "Edsp.Rounded.C93_pitch_reached",
    "Edsp.Rounded.C93_exact_partial",
    "Edsp.Rounded.C93_error_partial",
    "Edsp.Rounded.C93_saw_partial",
    "Edsp.Rounded.C93_square_partial",
    "Edsp.Rounded.C93_sine_partial"
   ],
   "note": "Violated for every precision; error bound and exact clocks proved."
  },
  {
   "property": "C94",
   "status": "partial",
   "theorems": [
    "Edsp.Rounded.C94_mean_partial",
    "Edsp.Rounded.C94_energy",
    "Edsp.Rounded.C94_variance_nonneg",
    "Edsp.Rounded.C94_power_partial",
    "Edsp.Rounded.C94_variance_partial",
    "Edsp.Rounded.C94_exact_mean_partial",
    "Edsp.Rounded.C94_exact_energy_partial",
    "Edsp.Rounded.C94_long_violates",
    "Edsp.Rounded.C94_constant_violates"
   ],
   "note": "Error bounds proved; equal numbers and long inputs violated."
  },
  {
   "property": "C95",
   "status": "partial",
   "theorems": [
    "Edsp.Rounded.C95_error_partial",
    "Edsp.Rounded.C95_exact_partial",
    "Edsp.Rounded.C95_within",
    "Edsp.Rounded.C95_count_violates",
    "Edsp.Rounded.C95_count_finite",
    "Edsp.Rounded.C95_short_violates",
    "Edsp.Rounded.C95_beyond_violates"
   ],
   "note": "Error bound and exact grids proved; end point and count violated."
  },
  {
   "property": "C96",
   "status": "proved",
   "theorems": [
    "Edsp.Rounded.C96_normalize",
    "Edsp.Rounded.C96_again",
    "Edsp.Rounded.C96_silence"
   ],
   "note": ""
  },
  {
   "property": "C97",
   "status": "partial",
   "theorems": [
    "Edsp.PyObj.C97_generate",
    "Edsp.PyObj.C97_negative",
    "Edsp.PyObj.C97_set",
    "Edsp.PyObj.C97_others",
    "Edsp.PyObj.C97_stream",
    "Edsp.PyObj.C97_average",
    "Edsp.PyObj.C97_rms",
    "Edsp.PyObj.C97_sine",
    "Edsp.PyObj.C97_triangle",
    "Edsp.PyObj.C97_size_violates",
    "Edsp.PyObj.C97_empty_violates"
   ],
   "note": "Proved: generation, independence of the objects, the filters' values. Not true: window sizes that are not whole numbers of at least 1."
  },
  {
   "property": "C98",
   "status": "partial",
   "theorems": [
    "Edsp.PyAud.C98_space_partial",
    "Edsp.PyAud.C98_back",
    "Edsp.PyAud.C98_short",
    "Edsp.PyAud.C98_negative_violates"
   ],
   "note": "Proved for sizes of 0 or more. Not true: a negative size raises; equal spacing on the scale (C63)."
  },
  {
   "property": "C99",
   "status": "partial",
   "theorems": [
    "Edsp.PyStr.C99_split",
    "Edsp.PyStr.C99_join_partial",
    "Edsp.PyStr.C99_round_trip_partial",
    "Edsp.PyStr.C99_case_partial",
    "Edsp.PyStr.C99_case_violates",
    "Edsp.PyStr.C99_trim_partial",
    "Edsp.PyStr.C99_trim_violates",
    "Edsp.PyStr.C99_long_delimiter_violates",
    "Edsp.PyStr.C99_wide_delimiter_violates",
    "Edsp.PyStr.C99_join_violates"
   ],
   "note": "Proved: split and join with an ASCII delimiter on any text, case and trim of ASCII. Not true: case and trim outside ASCII, delimiters of several characters or outside ASCII, NUL."
  },
  {
   "property": "C100",
   "status": "partial",
   "theorems": [
    "Edsp.Rounded.C100_section_partial",
    "Edsp.Rounded.C100_stable_partial",
    "Edsp.Rounded.C100_cascade_partial",
    "Edsp.Rounded.C100_stability_sound",
    "Edsp.Rounded.C100_stability_violates",
    "Edsp.Rounded.C100_constant_violates"
   ],
   "note": "the full statement is false: C100_constant_violates, C100_stability_violates; proved with enough bits for each stable filter and cascade"
  },
  {
   "property": "C101",
   "status": "partial",
   "theorems": [
    "Edsp.Rounded.C101_decay_partial",
    "Edsp.Rounded.C101_limit_partial",
    "Edsp.Rounded.C101_error_partial",
    "Edsp.Rounded.C101_underflow_violates"
   ],
   "note": "the full statement is false: C101_underflow_violates; proved: exponential decay to a multiple of the smallest number, and to 0 without underflow"
  },
  {
   "property": "C102",
   "status": "partial",
   "theorems": [
    "Edsp.Props.C102_any_partial",
    "Edsp.Props.C102_lvalue_violates",
    "Edsp.Props.C102_throw_violates"
   ],
   "note": "Full for programs that store temporaries or const variables whose copy does not throw; the rest is violated."
  },
  {
   "property": "C103",
   "status": "partial",
   "theorems": [
    "Edsp.Props.C103_variant_partial",
    "Edsp.Props.C103_assign_violates",
    "Edsp.Props.C103_self_violates",
    "Edsp.Props.C103_throw_violates",
    "Edsp.Props.C103_emplace_violates"
   ],
   "note": "Full except for assignment over the same alternative with a destructor, emplacing of a repeated type and exchange of unreadable alternatives, which are violated."
  },
  {
   "property": "C104",
   "status": "partial",
   "theorems": [
    "Edsp.Props.C104_get_partial",
    "Edsp.Props.C104_get_violates",
    "Edsp.Props.C104_repeated_violates",
    "Edsp.Props.C104_swap_violates",
    "Edsp.Props.C104_foreign_violates",
    "Edsp.Props.C104_compare_partial",
    "Edsp.Props.C104_order",
    "Edsp.Props.C104_visit_partial",
    "Edsp.Props.C104_visit_violates",
    "Edsp.Props.C104_hash_partial",
    "Edsp.Props.C104_hash_violates"
   ],
   "note": "Full for alternatives that are the first of their type and whose number is not the size of the largest; hashing only without left-over bytes; the rest is violated."
  },
  {
   "property": "C105",
   "status": "partial",
   "theorems": [
    "Edsp.Extended.C105_biquad_violates",
    "Edsp.Extended.C105_cascade_violates",
    "Edsp.Extended.C105_biquad_reset",
    "Edsp.Extended.C105_biquad_finite_partial",
    "Edsp.Extended.C105_average_violates",
    "Edsp.Extended.C105_rms_violates",
    "Edsp.Extended.C105_overflow_violates",
    "Edsp.Extended.C105_average_finite_partial"
   ],
   "note": "samples that are not finite spoil the filters for ever (violated)"
  },
  {
   "property": "C106",
   "status": "partial",
   "theorems": [
    "Edsp.Extended.C106_extrema_partial",
    "Edsp.Extended.C106_extrema_violates",
    "Edsp.Extended.C106_order_violates",
    "Edsp.Extended.C106_normalize_violates",
    "Edsp.Extended.C106_normalize_inf_violates",
    "Edsp.Extended.C106_normalize_partial",
    "Edsp.Extended.C106_clip_violates",
    "Edsp.Extended.C106_clip_partial",
    "Edsp.Extended.C106_amplifier_partial",
    "Edsp.Extended.C106_amplifier_violates",
    "Edsp.Extended.C106_amplifier_plain",
    "Edsp.Extended.C106_sums",
    "Edsp.Extended.C106_mean_violates",
    "Edsp.Extended.C106_rssq_violates",
    "Edsp.Extended.C106_mean_partial",
    "Edsp.Extended.C106_exact_partial"
   ],
   "note": "NaN first in extrema, NaN in clipper, infinite samples in normalize, overflow in mean and rssq (violated)"
  },
  {
   "property": "C107",
   "status": "partial",
   "theorems": [
    "Edsp.C107.C107_range",
    "Edsp.C107.C107_attack_partial",
    "Edsp.C107.C107_decay_partial",
    "Edsp.C107.C107_release_partial",
    "Edsp.C107.C107_exact_partial",
    "Edsp.C107.C107_time_partial",
    "Edsp.C107.C107_rates_partial",
    "Edsp.C107.C107_attack_violates",
    "Edsp.C107.C107_attack_sharp",
    "Edsp.C107.C107_decay_violates",
    "Edsp.C107.C107_release_violates",
    "Edsp.C107.C107_attack_iff",
    "Edsp.C107.C107_decay_iff",
    "Edsp.C107.C107_release_iff",
    "Edsp.C107.C107_attackTime_violates",
    "Edsp.C107.C107_releaseTime_violates",
    "Edsp.C107.C107_times"
   ],
   "note": "A phase of at most half a unit in the last place per sample never ends (C107_attack_violates, C107_decay_violates, C107_release_violates; as times: C107_attackTime_violates, C107_releaseTime_violates). C107_attack_iff, C107_decay_iff, C107_release_iff decide for every rate, level and target which phases end; C107_range (range) is proved in full. The partial theorems give the number of samples of the phases that end, for rates above half a unit of the binade."
  },
  {
   "property": "C108",
   "status": "partial",
   "theorems": [
    "Edsp.C108.C108_careful_partial",
    "Edsp.C108.C108_single",
    "Edsp.C108.C108_conv_partial",
    "Edsp.C108.C108_conv_violates",
    "Edsp.C108.C108_arrays_violates",
    "Edsp.C108.C108_kinds_violates",
    "Edsp.C108.C108_copy_violates",
    "Edsp.C108.C108_assign_violates",
    "Edsp.C108.C108_pffft_partial",
    "Edsp.C108.C108_pffft_real_violates",
    "Edsp.C108.C108_pffft_factor_violates",
    "Edsp.C108.C108_pffft_mixed_violates",
    "Edsp.C108.C108_pffft_copy_violates"
   ],
   "note": "Copies (C108_copy_violates, C108_pffft_copy_violates), assignment (C108_assign_violates), arrays of another sort (C108_arrays_violates, C108_conv_violates) and sizes and mixed use of pffft engines (C108_pffft_real_violates, C108_pffft_factor_violates, C108_pffft_mixed_violates) are violated. Proved: programs that copy engines only before use and use each for arrays of one sort (C108_careful_partial), the one-transform functions with any arrays (C108_single), conv and xcorr with equally aligned vectors (C108_conv_partial), pffft engines of a supported size used for one sort of transform (C108_pffft_partial)."
  },
  {
   "property": "C109",
   "status": "partial",
   "theorems": [
    "Edsp.C109.C109_race_free_partial",
    "Edsp.C109.C109_progress",
    "Edsp.C109.C109_fft_violates",
    "Edsp.C109.C109_logger_violates",
    "Edsp.C109.C109_environment_violates"
   ],
   "note": "race free and deadlock free for threads whose calls are apart, all interleavings; violated for transforms in two threads, the settings of the logger and the text of get_env, which the condition excludes"
  },
  {
   "property": "C110",
   "status": "partial",
   "theorems": [
    "Edsp.C110.C110_values_partial",
    "Edsp.C110.C110_no_leak_partial",
    "Edsp.C110.C110_moved_from_violates",
    "Edsp.C110.C110_dangling_violates",
    "Edsp.C110.C110_self_violates",
    "Edsp.C110.C110_clear_violates"
   ],
   "note": "proved for programs that give a buffer new contents or size before using it after a move, leaks included; violated for uses of a moved-from buffer and self-move"
  },
  {
   "property": "C111",
   "status": "partial",
   "theorems": [
    "Edsp.C111.C111_programs_partial",
    "Edsp.C111.C111_transform_partial",
    "Edsp.C111.C111_size_violates",
    "Edsp.C111.C111_read_violates"
   ],
   "note": "Holds for buffers below 2^31 elements; the int argument of operator+= breaks larger ones."
  },
  {
   "property": "C112",
   "status": "partial",
   "theorems": [
    "Edsp.C112.C112_input_partial",
    "Edsp.C112.C112_output_partial",
    "Edsp.C112.C112_wrapped_violates",
    "Edsp.C112.C112_window_partial",
    "Edsp.C112.C112_window_violates"
   ],
   "note": "Holds exactly when the elements lie one after the other in memory; violated otherwise."
  },
  {
   "property": "C113",
   "status": "partial",
   "theorems": [
    "Edsp.Props.C113_mean_partial",
    "Edsp.Props.C113_mean_violates",
    "Edsp.Props.C113_mean_overflow_violates",
    "Edsp.Props.C113_mean_length_violates",
    "Edsp.Props.C113_energy_partial",
    "Edsp.Props.C113_energy_violates",
    "Edsp.Props.C113_energy_overflow_violates",
    "Edsp.Props.C113_maxabs_partial",
    "Edsp.Props.C113_maxabs_violates",
    "Edsp.Props.C113_rectify_partial",
    "Edsp.Props.C113_rectify_violates",
    "Edsp.Props.C113_normalize_partial",
    "Edsp.Props.C113_normalize_sign_violates",
    "Edsp.Props.C113_normalize_int_violates",
    "Edsp.Props.C113_derivative_partial",
    "Edsp.Props.C113_derivative_violates",
    "Edsp.Props.C113_amplifier_partial",
    "Edsp.Props.C113_amplifier_violates",
    "Edsp.Props.C113_amplifier_clip",
    "Edsp.Props.C113_duration_partial",
    "Edsp.Props.C113_duration_violates",
    "Edsp.Props.C113_effective_duration_violates",
    "Edsp.Props.C113_azcr_violates"
   ],
   "note": "Proved where sums and lengths fit in the sample type (amplifier with limits: always); the negation is proved for the other cases of each function."
  },
  {
   "property": "C114",
   "status": "partial",
   "theorems": [
    "Edsp.Props.C114_average_partial",
    "Edsp.Props.C114_average_wide_partial",
    "Edsp.Props.C114_average_violates",
    "Edsp.Props.C114_average_length_violates",
    "Edsp.Props.C114_rms_partial",
    "Edsp.Props.C114_rms_violates",
    "Edsp.Props.C114_rms_overflow_violates"
   ],
   "note": "Proved where the sums fit in the sample type; the negation is proved for loud constant signals, lengths that are multiples of 2^w, and squares in the upper half of the range."
  },
  {
   "property": "C115",
   "status": "partial",
   "theorems": [
    "Edsp.C115.C115_accuracy_partial",
    "Edsp.C115.C115_range_partial",
    "Edsp.C115.C115_blackman_violates",
    "Edsp.C115.C115_triangular_violates"
   ],
   "note": "welch with even N is C38_welch_violates; blackman starts with a negative number and long triangular windows are constant (negations proved)"
  },
  {
   "property": "C116",
   "status": "partial",
   "theorems": [
    "Edsp.Props.C116_accuracy_partial",
    "Edsp.Props.C116_stable_partial",
    "Edsp.Props.C116_silent_violates",
    "Edsp.Props.C116_undamped_violates"
   ],
   "note": "Accuracy and stability of the four designs without gain proved under stated room for rounding; two violations proved (silent low-pass, undamped designs). The shelves are C126. Nothing is claimed between the two regimes."
  },
  {
   "property": "C117",
   "status": "proved",
   "theorems": [
    "Edsp.C117.C117_angles",
    "Edsp.C117.C117_angles_not_exact",
    "Edsp.C117.C117_levels",
    "Edsp.C117.C117_levels_return"
   ],
   "note": ""
  },
  {
   "property": "C118",
   "status": "partial",
   "theorems": [
    "Edsp.C118.C118_stream_partial",
    "Edsp.C118.C118_filters_partial",
    "Edsp.C118.C118_overlap_violates",
    "Edsp.C118.C118_difference_violates",
    "Edsp.C118.C118_difference_zero_violates"
   ],
   "note": "false of amdf and asdf in place and of a destination that begins inside the source (proved); the rest is proved"
  },
  {
   "property": "C119",
   "status": "proved",
   "theorems": [
    "Edsp.C119.C119_blocks",
    "Edsp.C119.C119_filter"
   ],
   "note": "Any per-sample object; biquad and cascade as instances. Audio library assumed to deliver at least one sample while any is left and to store all it is given."
  },
  {
   "property": "C120",
   "status": "proved",
   "theorems": [
    "Edsp.C120.C120_mel",
    "Edsp.C120.C120_erb",
    "Edsp.C120.C120_erb_small",
    "Edsp.C120.C120_cent",
    "Edsp.C120.C120_cent_sign",
    "Edsp.C120.C120_bark"
   ],
   "note": "Library functions are parameters with a relative error; no overflow or underflow."
  },
  {
   "property": "C121",
   "status": "partial",
   "theorems": [
    "Edsp.Rounded.C121_weighted_centroid",
    "Edsp.Rounded.C121_centroid_partial",
    "Edsp.Rounded.C121_centroid_violates",
    "Edsp.Rounded.C121_long_violates",
    "Edsp.Rounded.C121_weighted_spread",
    "Edsp.Rounded.C121_spread_partial",
    "Edsp.Rounded.C121_crest"
   ],
   "note": "The centroid and the spread without an axis are bounded for spectra of at most 2^p + 1 lines; C121_long_violates: the counter stops at 2^p. C121_centroid_violates: the centroid of a single line can lie above the last index. Overflow and underflow are not modelled."
  },
  {
   "property": "C122",
   "status": "partial",
   "theorems": [
    "Edsp.Rounded.C122_harmonic_mean",
    "Edsp.Rounded.C122_harmonic_zero",
    "Edsp.Rounded.C122_norm",
    "Edsp.Rounded.C122_geometric_mean",
    "Edsp.Rounded.C122_geometric_zero",
    "Edsp.Rounded.C122_flatness",
    "Edsp.Rounded.C122_flatness_zero",
    "Edsp.Rounded.C122_entropy_violates",
    "Edsp.Rounded.C122_entropy_partial",
    "Edsp.Rounded.C122_spectral_entropy_partial",
    "Edsp.Rounded.C122_spectral_entropy_violates"
   ],
   "note": "C122_entropy_violates and C122_spectral_entropy_violates: a line that is 0 makes the result not a number. Positive lines are covered in full. Overflow and underflow are not modelled."
  },
  {
   "property": "C123",
   "status": "partial",
   "theorems": [
    "Edsp.Rounded.C123_even_moment",
    "Edsp.Rounded.C123_kurtosis",
    "Edsp.Rounded.C123_moment",
    "Edsp.Rounded.C123_skewness",
    "Edsp.Rounded.C123_constant_violates",
    "Edsp.Rounded.C123_rms_partial",
    "Edsp.Rounded.C123_rms_violates",
    "Edsp.Rounded.C123_differences"
   ],
   "note": "Proved except for two violations: three equal samples can have skewness and kurtosis 1 (C123_constant_violates), and the RMS adds 1 to the sum of squares, so that silence has a positive RMS (C123_rms_violates); C123_rms_partial gives the value computed. Every precision, no overflow or underflow."
  },
  {
   "property": "C124",
   "status": "partial",
   "theorems": [
    "Edsp.Rounded.C124_rolloff",
    "Edsp.Rounded.C124_azcr_partial",
    "Edsp.Rounded.C124_azcr_violates",
    "Edsp.Rounded.C124_duration_partial",
    "Edsp.Rounded.C124_duration_violates",
    "Edsp.Rounded.C124_effective_duration",
    "Edsp.Rounded.C124_leq",
    "Edsp.Rounded.C124_leq_silence"
   ],
   "note": "Roll-off, effective duration and level proved. Zero crossings and duration proved up to 2^p samples; beyond, the counter or the converted length loses samples (C124_azcr_violates, C124_duration_violates)."
  },
  {
   "property": "C125",
   "status": "partial",
   "theorems": [
    "Edsp.Props.C125_basic",
    "Edsp.Props.C125_faults",
    "Edsp.Props.C125_own",
    "Edsp.Props.C125_rotate",
    "Edsp.Props.C125_strong_partial",
    "Edsp.Props.C125_strong_violates",
    "Edsp.Props.C125_full_violates"
   ],
   "note": "The buffer stays usable after any exceptions and own elements may be pushed (C125_basic, C125_faults, C125_own, C125_rotate). The strong guarantee is false of the code: C125_strong_violates in every reachable state with room, C125_full_violates at a full buffer; C125_strong_partial is what holds."
  },
  {
   "property": "C126",
   "status": "partial",
   "theorems": [
    "Edsp.Props.C126_low_shelf_partial",
    "Edsp.Props.C126_high_shelf_partial",
    "Edsp.Props.C126_stable_partial",
    "Edsp.Props.C126_identity",
    "Edsp.Props.C126_undamped_violates"
   ],
   "note": "Proved: accuracy bounds, stability where there is room, the exact identity at 0 dB. Violated: stability for every quality (C126_undamped_violates). Between the two regimes (leading coefficient or a term comparable to the rounding errors) nothing is claimed; no overflow or underflow."
  },
  {
   "property": "C127",
   "status": "partial",
   "theorems": [
    "Edsp.Props.C127_silence",
    "Edsp.Props.C127_silence_laws",
    "Edsp.Props.C127_upto_violates",
    "Edsp.Props.C127_rounded_partial",
    "Edsp.Props.C127_rounded_violates",
    "Edsp.Props.C127_not_finite",
    "Edsp.Props.C127_equal",
    "Edsp.Props.C127_equal_partial",
    "Edsp.Props.C127_equal_violates"
   ],
   "note": "Violated at the threshold itself, near it by rounding, and by NaN. Underflow is not modelled."
  },
  {
   "property": "C128",
   "status": "partial",
   "theorems": [
    "Edsp.C128.C128_statistics",
    "Edsp.C128.C128_shape_partial",
    "Edsp.C128.C128_differences",
    "Edsp.C128.C128_moving",
    "Edsp.C128.C128_filters",
    "Edsp.C128.C128_generators",
    "Edsp.C128.C128_silence",
    "Edsp.C128.C128_rms_violates",
    "Edsp.C128.C128_rms_silent_violates",
    "Edsp.C128.C128_azcr_violates",
    "Edsp.C128.C128_other_gains"
   ],
   "note": "Proved in full for every function named except rms (C128_rms_violates for every signal in exact arithmetic, C128_rms_silent_violates in float and double) and azcr with the polarity turned round (C128_azcr_violates). No overflow, no underflow."
  },
  {
   "property": "C129",
   "status": "partial",
   "theorems": [
    "Edsp.C129.C129_biquads",
    "Edsp.C129.C129_cascades",
    "Edsp.C129.C129_oscillators",
    "Edsp.C129.C129_adsr",
    "Edsp.C129.C129_follower",
    "Edsp.C129.C129_durations",
    "Edsp.C129.C129_rbj_rounded",
    "Edsp.C129.C129_adsr_rounded",
    "Edsp.C129.C129_oscillators_rounded",
    "Edsp.C129.C129_durations_rounded",
    "Edsp.C129.C129_sawtooth_violates"
   ],
   "note": "Proved in exact arithmetic for every factor and in floating point for powers of two; violated in double for other factors (C129_sawtooth_violates)."
  },
  {
   "property": "C130",
   "status": "partial",
   "theorems": [
    "Edsp.C130.C130_cascade_iff",
    "Edsp.C130.C130_biquad_iff",
    "Edsp.C130.C130_cascade_keeps",
    "Edsp.C130.C130_butterworth",
    "Edsp.C130.C130_chebyshev",
    "Edsp.C130.C130_bandstop",
    "Edsp.C130.C130_shelves",
    "Edsp.C130.C130_bandpass_violates",
    "Edsp.C130.C130_all_pass",
    "Edsp.C130.C130_rbj_iff",
    "Edsp.C130.C130_rbj_bandpass"
   ],
   "note": "Exact arithmetic. Proved for sections, cascades, the low-pass, high-pass, band-stop, shelf and all-pass designs; false of the Butterworth band-pass (C130_bandpass_violates)."
  },
  {
   "property": "C131",
   "status": "partial",
   "theorems": [
    "Edsp.C131.C131_cosine",
    "Edsp.C131.C131_hann_blackman",
    "Edsp.C131.C131_straight",
    "Edsp.C131.C131_ends_violates",
    "Edsp.C131.C131_even_violates"
   ],
   "note": "Exact arithmetic. Proved for Hann, Blackman, Bartlett, triangular and rectangular windows of the lengths that fit; violated by the windows whose end values are not 0 and by Hann windows of even length."
  },
  {
   "property": "C132",
   "status": "partial",
   "theorems": [
    "Edsp.C132.C132_extrema",
    "Edsp.C132.C132_peak_violates",
    "Edsp.C132.C132_statistics",
    "Edsp.C132.C132_features",
    "Edsp.C132.C132_rounded_levels_partial",
    "Edsp.C132.C132_rounded_partial",
    "Edsp.C132.C132_rounded_violates"
   ],
   "note": "Mean in floating point arithmetic depends on the order: C132_rounded_violates; position of the peak and sign of peakabs: C132_peak_violates."
  },
  {
   "property": "C133",
   "status": "proved",
   "theorems": [
    "Edsp.C133.C133_sums",
    "Edsp.C133.C133_rounded",
    "Edsp.C133.C133_tail",
    "Edsp.C133.C133_delay",
    "Edsp.C133.C133_rounded_tail",
    "Edsp.C133.C133_rolloff",
    "Edsp.C133.C133_spectrum"
   ],
   "note": "Exact arithmetic, and rounded arithmetic without overflow and underflow for the sums, norm, crest, centroid and spread."
  },
  {
   "property": "C134",
   "status": "partial",
   "theorems": [
    "Edsp.C134.C134_compression",
    "Edsp.C134.C134_characteristic",
    "Edsp.C134.C134_expansion_partial",
    "Edsp.C134.C134_inverse_violates"
   ],
   "note": "Compression proved; the expansion is not the inverse: C134_inverse_violates."
  },
  {
   "property": "C135",
   "status": "partial",
   "theorems": [
    "Edsp.Props.C135_accuracy_partial",
    "Edsp.Props.C135_stable_partial",
    "Edsp.Props.C135_zeros",
    "Edsp.Props.C135_zeros_rbj",
    "Edsp.Props.C135_dc_violates",
    "Edsp.Props.C135_undamped_violates"
   ],
   "note": "Violated for very low cutoffs and very high qualities (C135_dc_violates, C135_undamped_violates); accuracy and stability with room (_partial); zeros exact."
  },
  {
   "property": "C136",
   "status": "partial",
   "theorems": [
    "Edsp.C136.C136_level",
    "Edsp.C136.C136_rms_violates",
    "Edsp.C136.C136_transform",
    "Edsp.C136.C136_spectrum",
    "Edsp.C136.C136_alias",
    "Edsp.C136.C136_features",
    "Edsp.C136.C136_period",
    "Edsp.C136.C136_triangle",
    "Edsp.C136.C136_square_violates"
   ],
   "note": "Everything stated is proved; rms and the mean of the square oscillator are as in C136_rms_violates and C136_square_violates."
  },
  {
   "property": "C137",
   "status": "proved",
   "theorems": [
    "Edsp.C137.C137_cascade",
    "Edsp.C137.C137_biquad",
    "Edsp.C137.C137_moving_average",
    "Edsp.C137.C137_superposition",
    "Edsp.C137.C137_grouping",
    "Edsp.C137.C137_matched",
    "Edsp.C137.C137_delay",
    "Edsp.C137.C137_shift"
   ],
   "note": "All statements proved for the real-number model; the moving average is the one with a positive length."
  },
  {
   "property": "C138",
   "status": "partial",
   "theorems": [
    "Edsp.C138.C138_coefficients",
    "Edsp.C138.C138_rbj_partial",
    "Edsp.C138.C138_zoelzer_partial",
    "Edsp.C138.C138_silent_violates"
   ],
   "note": "proved when 38400 k^2 <= 2^p (for Zoelzer 2^p cos(pi fc/fs)); without it refuted by C138_silent_violates"
  },
  {
   "property": "C139",
   "status": "proved",
   "theorems": [
    "Edsp.C139.C139_spectrum",
    "Edsp.C139.C139_cepstrum",
    "Edsp.C139.C139_dct",
    "Edsp.C139.C139_hilbert",
    "Edsp.C139.C139_correlation",
    "Edsp.C139.C139_differences",
    "Edsp.C139.C139_crossings",
    "Edsp.C139.C139_centroid",
    "Edsp.C139.C139_linspace",
    "Edsp.C139.C139_peak",
    "Edsp.C139.C139_moving_average"
   ],
   "note": "All statements proved for the real-number model."
  },
  {
   "property": "C140",
   "status": "partial",
   "theorems": [
    "Edsp.C140.C140_tone_partial",
    "Edsp.C140.C140_frequency_violates",
    "Edsp.C140.C140_sweep_violates",
    "Edsp.C140.C140_compensated_partial",
    "Edsp.C140.C140_bounded",
    "Edsp.C140.C140_setter_violates",
    "Edsp.C140.C140_forgets"
   ],
   "note": "Amplitude, phase, width and rate follow the running tone, and retuned filters stay bounded; but setting the frequency jumps the phase, a sweep runs twice as fast, and setting a coefficient to its own value clears the filter (proved)."
  },
  {
   "property": "C141",
   "status": "partial",
   "theorems": [
    "Edsp.C141.C141_undone_iff",
    "Edsp.C141.C141_rbj_shelves",
    "Edsp.C141.C141_butterworth_even_partial",
    "Edsp.C141.C141_butterworth_odd_violates",
    "Edsp.C141.C141_band_shelf_partial",
    "Edsp.C141.C141_band_shelf_violates",
    "Edsp.C141.C141_zoelzer_flat_partial",
    "Edsp.C141.C141_zoelzer_low_violates",
    "Edsp.C141.C141_zoelzer_high_violates"
   ],
   "note": "proved for the cookbook shelves and the Butterworth shelves of even order; odd orders and the Zoelzer shelves violate it (proved)"
  },
  {
   "property": "C142",
   "status": "partial",
   "theorems": [
    "Edsp.C142.C142_read_partial",
    "Edsp.C142.C142_long_violates",
    "Edsp.C142.C142_ragged_violates",
    "Edsp.C142.C142_ragged_long",
    "Edsp.C142.C142_seek",
    "Edsp.C142.C142_sizes",
    "Edsp.C142.C142_write_partial",
    "Edsp.C142.C142_write_violates",
    "Edsp.C142.C142_blocks_partial",
    "Edsp.C142.C142_round_trip_partial",
    "Edsp.C142.C142_blocks_violates",
    "Edsp.C142.C142_default_buffer"
   ],
   "note": "True when the internal buffer of the decoder holds whole frames or the request fits in it. Proved false otherwise (C142_long_violates, C142_blocks_violates): e.g. six channels and more than 1024 samples at a time deliver nothing. Requests for incomplete frames deliver nothing or lose their last part (C142_ragged_violates, C142_ragged_long), incomplete frames written are dropped (C142_write_violates)."
  },
  {
   "property": "C143",
   "status": "partial",
   "theorems": [
    "Edsp.C143.C143_room",
    "Edsp.C143.C143_documented_size_violates",
    "Edsp.C143.C143_factor_violates",
    "Edsp.C143.C143_lost_violates",
    "Edsp.C143.C143_down_partial",
    "Edsp.C143.C143_channels_violates",
    "Edsp.C143.C143_reset_violates",
    "Edsp.C143.C143_builds_violates"
   ],
   "note": "True for factors below 1 and blocks longer than the converter's latency (C143_down_partial), and every call stays inside a destination as long as the input (C143_room). Proved false for every factor above 1 (C143_lost_violates), for several channels, reset, factors that are not positive, destinations of the documented size and the meaning of the counts."
  },
  {
   "property": "C144",
   "status": "partial",
   "theorems": [
    "Edsp.C144.C144_compute_violates"
   ],
   "note": "Proved false: compute stores nothing (C144_compute_violates)."
  },
  {
   "property": "C145",
   "status": "proved",
   "theorems": [
    "Edsp.C145.C145_noise",
    "Edsp.C145.C145_gain",
    "Edsp.C145.C145_period"
   ],
   "note": "Every clause in exact arithmetic (the transforms are taken as exact)."
  },
  {
   "property": "C146",
   "status": "proved",
   "theorems": [
    "Edsp.C146.C146_leakage",
    "Edsp.C146.C146_tone",
    "Edsp.C146.C146_oscillator",
    "Edsp.C146.C146_gain"
   ],
   "note": "Every clause in exact arithmetic."
  },
  {
   "property": "C147",
   "status": "proved",
   "theorems": [
    "Edsp.C147.C147_join",
    "Edsp.C147.C147_real",
    "Edsp.C147.C147_split",
    "Edsp.C147.C147_join_split",
    "Edsp.C147.C147_real_in_place",
    "Edsp.C147.C147_negative",
    "Edsp.C147.C147_fft",
    "Edsp.C147.C147_ifft",
    "Edsp.C147.C147_fft_ifft",
    "Edsp.C147.C147_complex",
    "Edsp.C147.C147_complex_round_trip",
    "Edsp.C147.C147_hilbert"
   ],
   "note": "All functions; the overlap allowed by complex2real is exact for equal beginnings, the destruction by real2complex in place is a theorem."
  },
  {
   "property": "C148",
   "status": "partial",
   "theorems": [
    "Edsp.C148.C148_cascade",
    "Edsp.C148.C148_pass",
    "Edsp.C148.C148_shelf_partial",
    "Edsp.C148.C148_shelf_violates"
   ],
   "note": "Pass filters: proved. Violated by the Butterworth shelves of order 2 or more (C148_shelf_violates)."
  },
  {
   "property": "C149",
   "status": "partial",
   "theorems": [
    "Edsp.C149.C149_bank",
    "Edsp.C149.C149_butterworth",
    "Edsp.C149.C149_band_violates",
    "Edsp.C149.C149_rbj_samples",
    "Edsp.C149.C149_zoelzer_samples",
    "Edsp.C149.C149_rbj_energy",
    "Edsp.C149.C149_zoelzer_energy"
   ],
   "note": "bank, Butterworth crossover, RBJ and Zoelzer samples and energies proved; false of the Butterworth band-pass and band-stop pair"
  },
  {
   "property": "C150",
   "status": "proved",
   "theorems": [
    "Edsp.C150.C150_low_resonance",
    "Edsp.C150.C150_high_resonance",
    "Edsp.C150.C150_band_width",
    "Edsp.C150.C150_butterworth_frequency",
    "Edsp.C150.C150_butterworth_order",
    "Edsp.C150.C150_butterworth_cutoff",
    "Edsp.C150.C150_butterworth_slope",
    "Edsp.C150.C150_chebyshev1",
    "Edsp.C150.C150_chebyshev_beats_butterworth"
   ],
   "note": "orders as in C55"
  },
  {
   "property": "C151",
   "status": "partial",
   "theorems": [
    "Edsp.C151.C151_extrema",
    "Edsp.C151.C151_absolute",
    "Edsp.C151.C151_sums",
    "Edsp.C151.C151_averages",
    "Edsp.C151.C151_weighted",
    "Edsp.C151.C151_means",
    "Edsp.C151.C151_variance",
    "Edsp.C151.C151_peak",
    "Edsp.C151.C151_crossings",
    "Edsp.C151.C151_silence",
    "Edsp.C151.C151_repeated",
    "Edsp.C151.C151_rms_violates",
    "Edsp.C151.C151_repeated_rms_violates",
    "Edsp.C151.C151_peak2peak_violates"
   ],
   "note": "Violated by rms (the sum starts with 1: C151_rms_violates, C151_repeated_rms_violates) and by peak2peak (C151_peak2peak_violates); everything else is proved, the extrema and peaks for every ordered type, the sums in exact arithmetic."
  },
  {
   "property": "C152",
   "status": "proved",
   "theorems": [
    "Edsp.C152.C152_repeated",
    "Edsp.C152.C152_spread",
    "Edsp.C152.C152_thinned",
    "Edsp.C152.C152_modulated",
    "Edsp.C152.C152_alternating",
    "Edsp.C152.C152_offset"
   ],
   "note": "Exact arithmetic."
  },
  {
   "property": "C153",
   "status": "partial",
   "theorems": [
    "Edsp.Props.C153_integers",
    "Edsp.Props.C153_fract_violates",
    "Edsp.Props.C153_fract_partial",
    "Edsp.Props.C153_half",
    "Edsp.Props.C153_square",
    "Edsp.Props.C153_inv",
    "Edsp.Props.C153_distances",
    "Edsp.Props.C153_amplifier",
    "Edsp.Props.C153_clip_partial",
    "Edsp.Props.C153_clip_violates",
    "Edsp.Props.C153_derivative",
    "Edsp.Props.C153_derivative_samples"
   ],
   "note": "fract of negative numbers next to 0 and limits with more bits than the samples violate the claim (C153_fract_violates, C153_clip_violates); the rest is proved"
  },
  {
   "property": "C154",
   "status": "proved",
   "theorems": [
    "Edsp.Props.C154_periodic",
    "Edsp.Props.C154_hum",
    "Edsp.Props.C154_level",
    "Edsp.Props.C154_response",
    "Edsp.Props.C154_ramp",
    "Edsp.Props.C154_memory",
    "Edsp.Props.C154_bounds"
   ],
   "note": ""
  },
  {
   "property": "C155",
   "status": "partial",
   "theorems": [
    "Edsp.Props.C155_three",
    "Edsp.Props.C155_low_passes",
    "Edsp.Props.C155_high_passes",
    "Edsp.Props.C155_band_passes",
    "Edsp.Props.C155_all_pass",
    "Edsp.Props.C155_shelves",
    "Edsp.Props.C155_zoelzer_shelves_partial",
    "Edsp.Props.C155_butterworth_low",
    "Edsp.Props.C155_butterworth_high_all",
    "Edsp.Props.C155_butterworth_high_partial",
    "Edsp.Props.C155_butterworth_high_violates",
    "Edsp.Props.C155_chebyshev_low",
    "Edsp.Props.C155_chebyshev_high_partial",
    "Edsp.Props.C155_chebyshev_high_violates",
    "Edsp.Props.C155_crossover"
   ],
   "note": "high-passes of odd order turn the sign of their pass band round (proved violation); Zoelzer shelves for gains of at least 0 dB"
  },
  {
   "property": "C156",
   "status": "proved",
   "theorems": [
    "Edsp.Props.C156_low_passes",
    "Edsp.Props.C156_butterworth_first",
    "Edsp.Props.C156_butterworth_higher",
    "Edsp.Props.C156_chebyshev2",
    "Edsp.Props.C156_chebyshev1",
    "Edsp.Props.C156_no_resonance"
   ],
   "note": "Exact criterion for the second-order sections and the first-order Butterworth low-pass; higher orders of the three families never have the properties (for even orders of Chebyshev I, whose constants come out smaller, only the order of samples is treated)."
  },
  {
   "property": "C157",
   "status": "proved",
   "theorems": [
    "Edsp.Props.C157_low_passes",
    "Edsp.Props.C157_high_passes",
    "Edsp.Props.C157_band_passes",
    "Edsp.Props.C157_all_pass",
    "Edsp.Props.C157_shelves",
    "Edsp.Props.C157_butterworth_low",
    "Edsp.Props.C157_butterworth_high"
   ],
   "note": ""
  },
  {
   "property": "C158",
   "status": "proved",
   "theorems": [
    "Edsp.Props.C158_rbj",
    "Edsp.Props.C158_zoelzer",
    "Edsp.Props.C158_shelves",
    "Edsp.Props.C158_not_silent",
    "Edsp.Props.C158_unique"
   ],
   "note": ""
  },
  {
   "property": "C159",
   "status": "proved",
   "theorems": [
    "Edsp.Props.C159_mean",
    "Edsp.Props.C159_extrema",
    "Edsp.Props.C159_peak2peak",
    "Edsp.Props.C159_levels",
    "Edsp.Props.C159_norms",
    "Edsp.Props.C159_moving",
    "Edsp.Props.C159_elements",
    "Edsp.Props.C159_crossings_jump",
    "Edsp.Props.C159_example"
   ],
   "note": ""
  },
  {
   "property": "C160",
   "status": "proved",
   "theorems": [
    "Edsp.Props.C160_samples",
    "Edsp.Props.C160_levels",
    "Edsp.Props.C160_spread_falls",
    "Edsp.Props.C160_moving",
    "Edsp.Props.C160_elements",
    "Edsp.Props.C160_low_passes",
    "Edsp.Props.C160_butterworth",
    "Edsp.Props.C160_example"
   ],
   "note": ""
  },
  {
   "property": "C161",
   "status": "partial",
   "theorems": [
    "Edsp.Props.C161_far_samples",
    "Edsp.Props.C161_farthest_sample",
    "Edsp.Props.C161_spread_and_range",
    "Edsp.Props.C161_levels",
    "Edsp.Props.C161_rms_violates",
    "Edsp.Props.C161_rms_partial",
    "Edsp.Props.C161_example"
   ],
   "note": "the root mean square can exceed the largest magnitude, because its sum starts at 1 (C161_rms_violates)"
  },
  {
   "property": "C162",
   "status": "proved",
   "theorems": [
    "Edsp.Props.C162_dft",
    "Edsp.Props.C162_real_transforms",
    "Edsp.Props.C162_conv",
    "Edsp.Props.C162_stable",
    "Edsp.Props.C162_low_passes",
    "Edsp.Props.C162_butterworth",
    "Edsp.Props.C162_example"
   ],
   "note": ""
  },
  {
   "property": "C163",
   "status": "proved",
   "theorems": [
    "Edsp.Props.C163_lags",
    "Edsp.Props.C163_affine",
    "Edsp.Props.C163_example"
   ],
   "note": ""
  },
  {
   "property": "C164",
   "status": "proved",
   "theorems": [
    "Edsp.Props.C164_mixture",
    "Edsp.Props.C164_gain",
    "Edsp.Props.C164_axis",
    "Edsp.Props.C164_example"
   ],
   "note": ""
  },
  {
   "property": "C165",
   "status": "proved",
   "theorems": [
    "Edsp.Props.C165_centroid",
    "Edsp.Props.C165_spread",
    "Edsp.Props.C165_crest",
    "Edsp.Props.C165_flatness",
    "Edsp.Props.C165_entropy",
    "Edsp.Props.C165_example"
   ],
   "note": ""
  },
  {
   "property": "C166",
   "status": "proved",
   "theorems": [
    "Edsp.Props.C166_unbounded",
    "Edsp.Props.C166_stability_iff",
    "Edsp.Props.C166_cancelled",
    "Edsp.Props.C166_example"
   ],
   "note": ""
  },
  {
   "property": "C167",
   "status": "proved",
   "theorems": [
    "Edsp.Props.C167_two_levels",
    "Edsp.Props.C167_bounds",
    "Edsp.Props.C167_symmetric",
    "Edsp.Props.C167_means",
    "Edsp.Props.C167_example"
   ],
   "note": ""
  },
  {
   "property": "C168",
   "status": "proved",
   "theorems": [
    "Edsp.Props.C168.C168_complex",
    "Edsp.Props.C168.C168_real"
   ],
   "note": ""
  },
  {
   "property": "C169",
   "status": "proved",
   "theorems": [
    "Edsp.Props.C169.C169_cascade",
    "Edsp.Props.C169.C169_biquad",
    "Edsp.Props.C169.C169_restored",
    "Edsp.Props.C169.C169_rbj",
    "Edsp.Props.C169.C169_moving_average",
    "Edsp.Props.C169.C169_moving_rms"
   ],
   "note": ""
  },
  {
   "property": "C170",
   "status": "proved",
   "theorems": [
    "Edsp.Props.C170.C170_formulas",
    "Edsp.Props.C170.C170_same"
   ],
   "note": ""
  },
  {
   "property": "C171",
   "status": "proved",
   "theorems": [
    "Edsp.Props.C171.C171_hartley",
    "Edsp.Props.C171.C171_cosine",
    "Edsp.Props.C171.C171_analytic"
   ],
   "note": ""
  },
  {
   "property": "C172",
   "status": "proved",
   "theorems": [
    "Edsp.Props.C172.C172_rise_and_fall",
    "Edsp.Props.C172.C172_flattop"
   ],
   "note": ""
  },
  {
   "property": "C173",
   "status": "proved",
   "theorems": [
    "Edsp.Props.C173.C173_levels",
    "Edsp.Props.C173.C173_intervals",
    "Edsp.Props.C173.C173_steps",
    "Edsp.Props.C173.C173_shrink",
    "Edsp.Props.C173.C173_space",
    "Edsp.Props.C173.C173_bark"
   ],
   "note": ""
  },
  {
   "property": "C174",
   "status": "proved",
   "theorems": [
    "Edsp.Props.C174.C174_product",
    "Edsp.Props.C174.C174_cepstrum"
   ],
   "note": ""
  },
  {
   "property": "C175",
   "status": "proved",
   "theorems": [
    "Edsp.Props.C175.C175_moments"
   ],
   "note": ""
  },
  {
   "property": "C176",
   "status": "proved",
   "theorems": [
    "Edsp.Props.C176.C176_frames",
    "Edsp.Props.C176.C176_bins"
   ],
   "note": ""
  },
  {
   "property": "C177",
   "status": "proved",
   "theorems": [
    "Edsp.Props.C177.C177_conv",
    "Edsp.Props.C177.C177_xcorr",
    "Edsp.Props.C177.C177_attained"
   ],
   "note": ""
  },
  {
   "property": "C178",
   "status": "proved",
   "theorems": [
    "Edsp.Props.C178.C178_filter",
    "Edsp.Props.C178.C178_conv",
    "Edsp.Props.C178.C178_energy"
   ],
   "note": ""
  },
  {
   "property": "C179",
   "status": "proved",
   "theorems": [
    "Edsp.Props.C179.C179_filter",
    "Edsp.Props.C179.C179_averages",
    "Edsp.Props.C179.C179_derivative",
    "Edsp.Props.C179.C179_conv"
   ],
   "note": ""
  },
  {
   "property": "C180",
   "status": "proved",
   "theorems": [
    "Edsp.Props.C180.C180_orthogonal",
    "Edsp.Props.C180.C180_twice",
    "Edsp.Props.C180.C180_linear",
    "Edsp.Props.C180.C180_rotation"
   ],
   "note": ""
  },
  {
   "property": "C181",
   "status": "proved",
   "theorems": [
    "Edsp.Props.C181.C181_adjoint",
    "Edsp.Props.C181.C181_both_ways",
    "Edsp.Props.C181.C181_average",
    "Edsp.Props.C181.C181_correlation"
   ],
   "note": ""
  },
  {
   "property": "C182",
   "status": "proved",
   "theorems": [
    "Edsp.Props.C182.C182_cascade",
    "Edsp.Props.C182.C182_designs",
    "Edsp.Props.C182.C182_butterworth"
   ],
   "note": ""
  },
  {
   "property": "C183",
   "status": "proved",
   "theorems": [
    "Edsp.Props.C183.C183_cascade",
    "Edsp.Props.C183.C183_designs",
    "Edsp.Props.C183.C183_butterworth"
   ],
   "note": ""
  },
  {
   "property": "C184",
   "status": "proved",
   "theorems": [
    "Edsp.Props.C184.C184_forgets",
    "Edsp.Props.C184.C184_periodic",
    "Edsp.Props.C184.C184_unique",
    "Edsp.Props.C184.C184_mean",
    "Edsp.Props.C184.C184_start",
    "Edsp.Props.C184.C184_half_wave",
    "Edsp.Props.C184.C184_needs_stability"
   ],
   "note": ""
  },
  {
   "property": "C185",
   "status": "proved",
   "theorems": [
    "Edsp.Props.C185.C185_lines",
    "Edsp.Props.C185.C185_amplitudes",
    "Edsp.Props.C185.C185_no_new_lines"
   ],
   "note": ""
  },
  {
   "property": "C186",
   "status": "proved",
   "theorems": [
    "Edsp.Props.C186.C186_power",
    "Edsp.Props.C186.C186_bounds",
    "Edsp.Props.C186.C186_all_pass"
   ],
   "note": ""
  },
  {
   "property": "C187",
   "status": "proved",
   "theorems": [
    "Edsp.Props.C187.C187_low_pass",
    "Edsp.Props.C187.C187_high_pass",
    "Edsp.Props.C187.C187_cutoff_line"
   ],
   "note": ""
  },
  {
   "property": "C188",
   "status": "proved",
   "theorems": [
    "Edsp.Props.C188.C188_approach",
    "Edsp.Props.C188.C188_settles",
    "Edsp.Props.C188.C188_nearly_periodic"
   ],
   "note": ""
  },
  {
   "property": "C189",
   "status": "proved",
   "theorems": [
    "Edsp.Props.C189.C189_totals",
    "Edsp.Props.C189.C189_bound"
   ],
   "note": ""
  },
  {
   "property": "C190",
   "status": "proved",
   "theorems": [
    "Edsp.Props.C190.C190_settles",
    "Edsp.Props.C190.C190_approach",
    "Edsp.Props.C190.C190_periodic"
   ],
   "note": ""
  }
 ]
}