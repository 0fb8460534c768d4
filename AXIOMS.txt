Axioms used by each theorem of MANIFEST.json (output of #print axioms, grouped).

[Classical.choice, Quot.sound, propext]  (429 theorems)
  Lasy.C01_read_your_writes
  Lasy.C01_refines_register
  Lasy.C02_views_coherent
  Lasy.C03_getters_unobservable
  Lasy.C04_isolation
  Lasy.C05_setTemporal_rejected
  Lasy.C05_setSpectral_rejected
  Lasy.C05_setters_accept
  Lasy.C05_unset_grid_refuses
  Lasy.C06_refuted
  Lasy.C06_coherent_after_write_partial
  Lasy.C07_lossless
  Lasy.C08_parseval
  Lasy.C09_axes
  Lasy.C09_rejects_short_axis
  Lasy.C10_mode_layout
  Lasy.C11_cell_volumes_rt
  Lasy.C11_cell_volumes_xyt
  Lasy.C12_azimuthal_exact
  Lasy.C12_too_few_angles
  Lasy.C13_interpolates
  Lasy.C14_energy_at_construction
  Lasy.C14_unscaled_xyt
  Lasy.C15_normalize_energy
  Lasy.C15_normalize_energy_zero
  Lasy.C15_normalize_none
  Lasy.C15_normalize_twice
  Lasy.C16_normalize_field
  Lasy.C16_normalize_field_zero
  Lasy.C17_refuted
  Lasy.C17_normalize_intensity_zero_partial
  Lasy.C18_unknown_kind
  Lasy.C19_history
  Lasy.C19_apply_optics
  Lasy.C19_spectral
  Lasy.C19_compose
  Lasy.C20_pure_phase
  Lasy.C20_mirror
  Lasy.C20_axicon
  Lasy.C20_spectral_phase
  Lasy.C20_axiparabola
  Lasy.C21_spectral_phases_add
  Lasy.C21_mirrors_add
  Lasy.C21_spectral_phase_undone
  Lasy.C22_mirror
  Lasy.C22_spectral_phase
  Lasy.C22_axicon_refuted
  Lasy.C22_axicon_partial
  Lasy.C23_linear_phase_delays
  Lasy.C23_constructed
  Lasy.C24_time_window
  Lasy.C24_grid_unchanged
  Lasy.C24_constructed
  Lasy.C25_compose
  Lasy.C26_plane_wave
  Lasy.C27_energy
  Lasy.C28_cache_matches_grid
  Lasy.C29_refuted
  Lasy.C29_refuted_concrete
  Lasy.C29_backend_partial
  Lasy.C30_absorbing_layer
  Lasy.C30_energy
  Lasy.C30_rejected
  Lasy.C31_resampled_partial
  Lasy.C31_refuted
  Lasy.C32_refuted
  Lasy.C32_failure_partial
  Lasy.C32_failure_layer_partial
  Lasy.C33_cos_sin
  Lasy.C34_xyt
  Lasy.C34_rt
  Lasy.C34_labels
  Lasy.C34_premises
  Lasy.C35_location
  Lasy.C35_names
  Lasy.C35_counter
  Lasy.C35_files
  Lasy.C35_new
  Lasy.C36_reorder_xyt
  Lasy.C36_roundtrip_xyt
  Lasy.C36_refused
  Lasy.C36_z
  Lasy.C36_z_rt
  Lasy.C37_normalised
  Lasy.C37_length
  Lasy.C38_sum
  Lasy.C38_algebra
  Lasy.C38_factor
  Lasy.C38_complex
  Lasy.C38_accepted
  Lasy.C38_transverse_sum
  Lasy.C38_transverse_scaled
  Lasy.C39_refuted
  Lasy.C39_tolerance_partial
  Lasy.C40_formula
  Lasy.C40_documented
  Lasy.C40_defaults
  Lasy.C41_hermite_gauss
  Lasy.C41_gaussian
  Lasy.C41_beam
  Lasy.C42_gaussian
  Lasy.C42_super_gaussian_partial
  Lasy.C42_super_gaussian_refuted
  Lasy.C42_cosine
  Lasy.C43_support
  Lasy.C44_leaf_partial
  Lasy.C44_refuted
  Lasy.C44_parts_partial
  Lasy.C45_rotation
  Lasy.C45_mirror_partial
  Lasy.C45_refuted
  Lasy.C46_nodes_xyt
  Lasy.C46_either_direction
  Lasy.C46_bounded_xyt
  Lasy.C46_nodes_rt
  Lasy.C47_rt_refuted
  Lasy.C47_shape_refuted
  Lasy.C47_order_partial
  Lasy.C48_normalised
  Lasy.C48_evaluate
  Lasy.C48_centred
  Lasy.C49_samples
  Lasy.C49_hi_refuted
  Lasy.C49_descending_refuted
  Lasy.C50_inside
  Lasy.C50_translation
  Lasy.C50_scale
  Lasy.C50_width
  Lasy.C51_index
  Lasy.C51_bijection
  Lasy.C52_radial
  Lasy.C52_odd
  Lasy.C52_ndim
  Lasy.C52_zernike
  Lasy.C53_detuned
  Lasy.C53_bounds
  Lasy.C54_roundtrip_partial
  Lasy.C54_refuted
  Lasy.C55_energy_partial
  Lasy.C55_frequencies
  Lasy.C55_constructed
  Lasy.C55_refuted
  Lasy.C55_refuted_concrete
  Lasy.C56_duration
  Lasy.C56_duration_is_rms
  Lasy.C57_shown_partial
  Lasy.C57_plane_partial
  Lasy.C57_profile_partial
  Lasy.C57_refuted
  Lasy.C58_opposite_refuted
  Lasy.C58_refuted
  Lasy.C59_refuted
  Lasy.C59_steps_partial
  Lasy.C59_nd_refuted
  Lasy.C60_inputs_unchanged
  Lasy.C60_iterations
  Lasy.C60_no_iterations
  Lasy.C60_termination_refuted
  Lasy.C60_residual_refuted
  Lasy.C61_error_reduction
  Lasy.C62_static
  Lasy.C62_plate
  Lasy.C62_fm_ssd
  Lasy.C62_bounded
  Lasy.C63_isi
  Lasy.C63_ssd
  Lasy.C64_rt_refuted
  Lasy.C64_rt_zero_refuted
  Lasy.C65_window_partial
  Lasy.C65_bounds_partial
  Lasy.C65_offset_refuted
  Lasy.C65_data_refuted
  Lasy.C65_sum_refuted
  Lasy.C65_orders_refuted
  Lasy.C65_succeeds_partial
  Lasy.C66_show_rt
  Lasy.C67_resample_modes_partial
  Lasy.C67_refuted
  Lasy.C67_more_modes_refuted
  Lasy.C68_refuted
  Lasy.C68_prefix_partial
  Lasy.C69_mean_partial
  Lasy.C69_one_mode_partial
  Lasy.C69_roundtrip_one_mode_partial
  Lasy.C69_refuted
  Lasy.C70_add_partial
  Lasy.C70_mul_partial
  Lasy.C70_refuted
  Lasy.C71_orthonormal
  Lasy.C72_radial_partial
  Lasy.C72_corrected_partial
  Lasy.C72_refuted
  Lasy.C73_line
  Lasy.C74_history
  Lasy.C74_frequencies
  Lasy.C75_slice_partial
  Lasy.C75_refuted
  Lasy.C75_extent_refuted
  Lasy.C76_resampling
  Lasy.C77_orthonormal
  Lasy.C78_position_partial
  Lasy.C78_refuted
  Lasy.C79_order
  Lasy.C80_bounded
  Lasy.C80_peak_partial
  Lasy.C80_refuted
  Lasy.C81_components_partial
  Lasy.C81_data_samples_partial
  Lasy.C81_refuted
  Lasy.C82_angular_partial
  Lasy.C82_refuted
  Lasy.C83_represents
  Lasy.C84_exact
  Lasy.C85_grid_partial
  Lasy.C85_grid_rt_partial
  Lasy.C85_void_refuted
  Lasy.C85_refuted
  Lasy.C86_refuted
  Lasy.C86_signs_partial
  Lasy.C87_refuted
  Lasy.C88_rms
  Lasy.C88_zero_width
  Lasy.C89_isi_wraps_refuted
  Lasy.C89_isi_error_refuted
  Lasy.C89_ssd_frozen_refuted
  Lasy.C90_missing_refuted
  Lasy.C90_cycles_refuted
  Lasy.C90_accepted_partial
  Lasy.C90_zeros_partial
  Lasy.C90_nan_refuted
  Lasy.C91_cpp_range_refuted
  Lasy.C92_fm_bandwidth
  Lasy.C93_waist
  Lasy.C93_estimate_refuted
  Lasy.C94_conj_refuted
  Lasy.C94_focus_refuted
  Lasy.C94_imaginary_refuted
  Lasy.C95_parity_x
  Lasy.C95_parity_y
  Lasy.C96_scale
  Lasy.C96_sign_refuted
  Lasy.C97_direct
  Lasy.C97_refused
  Lasy.C98_labels_partial
  Lasy.C98_refuted
  Lasy.C99_mirror
  Lasy.C99_axiparabola_partial
  Lasy.C99_axiparabola_refuted
  Lasy.C99_axicon_partial
  Lasy.C100_super_gaussian
  Lasy.C100_jinc
  Lasy.C101_rt
  Lasy.C101_xyt
  Lasy.C102_agree
  Lasy.C103_full_partial
  Lasy.C103_envelope_refuted
  Lasy.C103_refuted
  Lasy.C104_axis_partial
  Lasy.C104_even_refuted
  Lasy.C105_range
  Lasy.C105_empty
  Lasy.C105_ascending
  Lasy.C106_energy_partial
  Lasy.C106_odd_refuted
  Lasy.C107_field
  Lasy.C107_float
  Lasy.C108_carrier
  Lasy.C109_peak_partial
  Lasy.C109_peak_refuted
  Lasy.Heap.C110_isolated
  Lasy.Heap.C110_window
  Lasy.Heap.C110_shared
  Lasy.Heap.C111_refuted
  Lasy.Heap.C111_left_partial
  Lasy.C112_round_trip
  Lasy.C113_export
  Lasy.C113_samples
  Lasy.C113_reversed
  Lasy.C114_import
  Lasy.C114_round_trip
  Lasy.C115_energy
  Lasy.C116_full_field_refused
  Lasy.C116_export_rt_refused
  Lasy.C116_refuted
  Lasy.C117_lens_gaussian
  Lasy.C117_lens_hermite
  Lasy.C117_lens_laguerre
  Lasy.C117_focus
  Lasy.C118_gaussian_spectrum
  Lasy.C118_chirped_gaussian
  Lasy.C119_group_delay
  Lasy.C119_arrives_later
  Lasy.C120_orthogonal
  Lasy.C120_energy_partial
  Lasy.C120_energy_factor_partial
  Lasy.C120_energy_refuted
  Lasy.C121_refused_partial
  Lasy.C121_refuted
  Lasy.C122_angular_mean
  Lasy.C122_angular_bound
  Lasy.C122_all_angles
  Lasy.C123_rotation
  Lasy.C123_rotation_band
  Lasy.C124_symmetry
  Lasy.C125_xyt_partial
  Lasy.C125_rt_full_partial
  Lasy.C125_rt_envelope_refuted
  Lasy.C126_energy_xyt
  Lasy.C126_energy_rt
  Lasy.C126_energy_disc
  Lasy.C126_geometries_agree
  Lasy.C127_duration_xyt
  Lasy.C127_duration_rt
  Lasy.C128_superposition
  Lasy.C129_there_and_back
  Lasy.C130_moved_xyt
  Lasy.C130_delayed_rt
  Lasy.C130_t_peak
  Lasy.C130_gaussian_rt
  Lasy.C131_field_xyt
  Lasy.C131_field_rt
  Lasy.C131_round
  Lasy.C132_modes
  Lasy.C133_gaussian_xyt
  Lasy.C133_gaussian_rt
  Lasy.C134_separable
  Lasy.C134_fine
  Lasy.C134_window
  Lasy.C134_gaussian
  Lasy.C134_super_gaussian
  Lasy.C134_cosine
  Lasy.C135_power
  Lasy.C135_period
  Lasy.C136_correlation
  Lasy.C136_mean_intensity
  Lasy.C136_width
  Lasy.C136_contrast
  Lasy.C137_exact_stays
  Lasy.C137_flat
  Lasy.C138_fundamental
  Lasy.C138_super_gaussian
  Lasy.C138_laguerre_hermite
  Lasy.C139_restart_xyt
  Lasy.C139_restart_rt
  Lasy.C140_assertions
  Lasy.C140_missing_axis
  Lasy.C140_bad_axis
  Lasy.C141_last_normalisation
  Lasy.C141_commutes
  Lasy.C142_separable
  Lasy.C142_chirped_gaussian
  Lasy.C142_filter
  Lasy.C142_converges
  Lasy.C143_filtered
  Lasy.C143_chirped_gaussian
  Lasy.C144_raw
  Lasy.C144_separable
  Lasy.C144_range
  Lasy.C144_energy
  Lasy.C144_energy_range
  Lasy.C144_gaussian
  Lasy.C145_barycenter
  Lasy.C145_fine
  Lasy.C146_transverse_phase_refuted
  Lasy.C146_time_partial
  Lasy.C146_everywhere_partial
  Lasy.C146_rt_partial
  Lasy.C146_fine_partial
  Lasy.C146_zeros_partial
  Lasy.C147_center
  Lasy.C147_d4sigma
  Lasy.C147_profile
  Lasy.C147_centred
  Lasy.C148_chirp
  Lasy.C148_fine
  Lasy.C148_vector_potential
  Lasy.C149_represents
  Lasy.C149_same_signal
  Lasy.C149_missing
  Lasy.C149_envelope
  Lasy.C149_offset
  Lasy.C149_off
  Lasy.C150_overlap
  Lasy.C150_bessel
  Lasy.C151_pulse_xyt
  Lasy.C151_pulse_rt
  Lasy.C151_sum_xyt
  Lasy.C151_sum_rt
  Lasy.C151_hermite_xyt
  Lasy.C151_hermite_rt
  Lasy.C151_laguerre_xyt
  Lasy.C151_laguerre_rt
  Lasy.C152_temporal
  Lasy.C152_no_phase
  Lasy.C153_energy
  Lasy.C153_energy_nd
  Lasy.C153_bounds
  Lasy.C154_stable
  Lasy.C154_energy
  Lasy.C154_gain
  Lasy.C155_bounds_partial
  Lasy.C155_refuted
  Lasy.C156_field_xyt
  Lasy.C156_gaussian_xyt
  Lasy.C156_field_rt
  Lasy.C156_gaussian_rt
  Lasy.C157_round
  Lasy.C157_gaussian
  Lasy.C157_xyt
  Lasy.C157_gaussian_xyt
  Lasy.C158_unchirped
  Lasy.C158_file
  Lasy.C158_gaussian_xyt
  Lasy.C158_gaussian_rt
  Lasy.C158_file_rt
  Lasy.C158_separable
  Lasy.C158_built_in
  Lasy.C159_plane
  Lasy.C159_index
  Lasy.C159_no_extrapolation
  Lasy.C160_fine_rt_angles
  Lasy.C160_xyt
  Lasy.C160_rt
  Lasy.C160_fine_xyt
  Lasy.C160_fine_rt
  Lasy.C161_complete
  Lasy.C162_any_beam
  Lasy.C162_mode_width
  Lasy.C162_vortex_width
