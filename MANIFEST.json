{
 "claims": [
  {
   "property": "C01",
   "status": "proved",
   "theorems": [
    "Lasy.C01_read_your_writes",
    "Lasy.C01_refines_register"
   ],
   "note": "refinement of the grid's two caches to one register, all histories"
  },
  {
   "property": "C02",
   "status": "proved",
   "theorems": [
    "Lasy.C02_views_coherent"
   ],
   "note": "corollary of the refinement, both reading orders"
  },
  {
   "property": "C03",
   "status": "proved",
   "theorems": [
    "Lasy.C03_getters_unobservable"
   ],
   "note": "corollary of the refinement"
  },
  {
   "property": "C04",
   "status": "proved",
   "theorems": [
    "Lasy.C04_isolation"
   ],
   "note": "refinement of a heap model with array references to a value semantics, all interleavings of caller writes and grid calls"
  },
  {
   "property": "C05",
   "status": "proved",
   "theorems": [
    "Lasy.C05_setTemporal_rejected",
    "Lasy.C05_setSpectral_rejected",
    "Lasy.C05_setters_accept",
    "Lasy.C05_unset_grid_refuses"
   ],
   "note": "rejected setter calls leave the object equal; unset grid refuses reads for ever"
  },
  {
   "property": "C06",
   "status": "partial",
   "theorems": [
    "Lasy.C06_refuted",
    "Lasy.C06_coherent_after_write_partial"
   ],
   "note": "false of the code: C06_refuted gives a history after which the two views disagree; the partial theorem covers histories whose last call before the switch is an accepted write"
  },
  {
   "property": "C07",
   "status": "proved",
   "theorems": [
    "Lasy.C07_lossless"
   ],
   "note": "both directions, every state and every Nt"
  },
  {
   "property": "C08",
   "status": "proved",
   "theorems": [
    "Lasy.C08_parseval"
   ],
   "note": "for the pair returned by the getters in every reachable state"
  },
  {
   "property": "C09",
   "status": "proved",
   "theorems": [
    "Lasy.C09_axes",
    "Lasy.C09_rejects_short_axis"
   ],
   "note": "uniform axes, end points, step; axes with fewer than 2 points rejected"
  },
  {
   "property": "C10",
   "status": "proved",
   "theorems": [
    "Lasy.C10_mode_layout"
   ],
   "note": ""
  },
  {
   "property": "C11",
   "status": "proved",
   "theorems": [
    "Lasy.C11_cell_volumes_rt",
    "Lasy.C11_cell_volumes_xyt"
   ],
   "note": "both geometries"
  },
  {
   "property": "C12",
   "status": "proved",
   "theorems": [
    "Lasy.C12_azimuthal_exact",
    "Lasy.C12_too_few_angles"
   ],
   "note": "all profiles acting point by point; any admissible number of angles, including the default"
  },
  {
   "property": "C13",
   "status": "proved",
   "theorems": [
    "Lasy.C13_interpolates"
   ],
   "note": ""
  },
  {
   "property": "C14",
   "status": "proved",
   "theorems": [
    "Lasy.C14_energy_at_construction",
    "Lasy.C14_unscaled_xyt"
   ],
   "note": "compared with the laser built from the same profile without laser_energy"
  },
  {
   "property": "C15",
   "status": "proved",
   "theorems": [
    "Lasy.C15_normalize_energy",
    "Lasy.C15_normalize_energy_zero",
    "Lasy.C15_normalize_none",
    "Lasy.C15_normalize_twice"
   ],
   "note": ""
  },
  {
   "property": "C16",
   "status": "proved",
   "theorems": [
    "Lasy.C16_normalize_field",
    "Lasy.C16_normalize_field_zero"
   ],
   "note": ""
  },
  {
   "property": "C17",
   "status": "partial",
   "theorems": [
    "Lasy.C17_refuted",
    "Lasy.C17_normalize_intensity_zero_partial"
   ],
   "note": "false of the code: normalize(kind='intensity') raises AssertionError for every non-zero field (C17_refuted); the partial theorem covers the zero field"
  },
  {
   "property": "C18",
   "status": "proved",
   "theorems": [
    "Lasy.C18_unknown_kind"
   ],
   "note": ""
  },
  {
   "property": "C19",
   "status": "proved",
   "theorems": [
    "Lasy.C19_history",
    "Lasy.C19_apply_optics",
    "Lasy.C19_spectral",
    "Lasy.C19_compose"
   ],
   "note": ""
  },
  {
   "property": "C20",
   "status": "proved",
   "theorems": [
    "Lasy.C20_pure_phase",
    "Lasy.C20_mirror",
    "Lasy.C20_axicon",
    "Lasy.C20_spectral_phase",
    "Lasy.C20_axiparabola"
   ],
   "note": "the axiparabola bound assumes nonnegative cell volumes, which C11 gives for every constructed grid with lo<hi and r0>=0"
  },
  {
   "property": "C21",
   "status": "proved",
   "theorems": [
    "Lasy.C21_spectral_phases_add",
    "Lasy.C21_mirrors_add",
    "Lasy.C21_spectral_phase_undone"
   ],
   "note": ""
  },
  {
   "property": "C22",
   "status": "partial",
   "theorems": [
    "Lasy.C22_mirror",
    "Lasy.C22_spectral_phase",
    "Lasy.C22_axicon_refuted",
    "Lasy.C22_axicon_partial"
   ],
   "note": "false of the axicon: the code has the factor 2/c which the documented multiplier lacks (C22_axicon_refuted); what the axicon does is C22_axicon_partial; mirror and spectral phase are proved"
  },
  {
   "property": "C23",
   "status": "proved",
   "theorems": [
    "Lasy.C23_linear_phase_delays",
    "Lasy.C23_constructed"
   ],
   "note": ""
  },
  {
   "property": "C24",
   "status": "proved",
   "theorems": [
    "Lasy.C24_time_window",
    "Lasy.C24_grid_unchanged",
    "Lasy.C24_constructed"
   ],
   "note": ""
  },
  {
   "property": "C25",
   "status": "proved",
   "theorems": [
    "Lasy.C25_compose"
   ],
   "note": "relative to the contract Axiprop.Additive on the external axiprop propagator (witness: Axiprop.freeSpace)"
  },
  {
   "property": "C26",
   "status": "proved",
   "theorems": [
    "Lasy.C26_plane_wave"
   ],
   "note": ""
  },
  {
   "property": "C27",
   "status": "proved",
   "theorems": [
    "Lasy.C27_energy"
   ],
   "note": "relative to the contract Axiprop.Unitary on the external axiprop propagator (witness: Axiprop.freeSpace)"
  },
  {
   "property": "C28",
   "status": "proved",
   "theorems": [
    "Lasy.C28_cache_matches_grid"
   ],
   "note": ""
  },
  {
   "property": "C29",
   "status": "partial",
   "theorems": [
    "Lasy.C29_refuted",
    "Lasy.C29_refuted_concrete",
    "Lasy.C29_backend_partial"
   ],
   "note": "false of the code: the backend argument of a later call is ignored once a propagator is cached (C29_refuted); what does hold is C29_backend_partial"
  },
  {
   "property": "C30",
   "status": "proved",
   "theorems": [
    "Lasy.C30_absorbing_layer",
    "Lasy.C30_energy",
    "Lasy.C30_rejected"
   ],
   "note": ""
  },
  {
   "property": "C31",
   "status": "partial",
   "theorems": [
    "Lasy.C31_resampled_partial",
    "Lasy.C31_refuted"
   ],
   "note": "false of the code: after propagate(grid=g) the cached propagator keeps the old radial grid / dx (C31_refuted); the first resampled call is C31_resampled_partial"
  },
  {
   "property": "C32",
   "status": "partial",
   "theorems": [
    "Lasy.C32_refuted",
    "Lasy.C32_failure_partial",
    "Lasy.C32_failure_layer_partial"
   ],
   "note": "false of the code: a resample that fails half way leaves a laser whose field is lost (C32_refuted); the failures that do leave the laser intact are C32_failure_partial, C32_failure_layer_partial"
  },
  {
   "property": "C33",
   "status": "proved",
   "theorems": [
    "Lasy.C33_cos_sin"
   ],
   "note": ""
  },
  {
   "property": "C34",
   "status": "proved",
   "theorems": [
    "Lasy.C34_xyt",
    "Lasy.C34_rt",
    "Lasy.C34_labels",
    "Lasy.C34_premises"
   ],
   "note": "axes of regular grids: every constructed laser after any propagations (C34_premises)"
  },
  {
   "property": "C35",
   "status": "proved",
   "theorems": [
    "Lasy.C35_location",
    "Lasy.C35_names",
    "Lasy.C35_counter",
    "Lasy.C35_files",
    "Lasy.C35_new"
   ],
   "note": ""
  },
  {
   "property": "C36",
   "status": "proved",
   "theorems": [
    "Lasy.C36_reorder_xyt",
    "Lasy.C36_roundtrip_xyt",
    "Lasy.C36_refused",
    "Lasy.C36_z",
    "Lasy.C36_z_rt"
   ],
   "note": "Cartesian and, for z data, cylindrical; the cylindrical round trip is C69"
  },
  {
   "property": "C37",
   "status": "proved",
   "theorems": [
    "Lasy.C37_normalised",
    "Lasy.C37_length"
   ],
   "note": ""
  },
  {
   "property": "C38",
   "status": "proved",
   "theorems": [
    "Lasy.C38_sum",
    "Lasy.C38_algebra",
    "Lasy.C38_factor",
    "Lasy.C38_complex",
    "Lasy.C38_accepted",
    "Lasy.C38_transverse_sum",
    "Lasy.C38_transverse_scaled"
   ],
   "note": "values, factors, acceptance, and no imaginary part lost"
  },
  {
   "property": "C39",
   "status": "partial",
   "theorems": [
    "Lasy.C39_refuted",
    "Lasy.C39_tolerance_partial"
   ],
   "note": "false of the code (C39_refuted: 800 nm and 809 nm are added, numpy's isclose compares with an absolute tolerance of 1e-8 metres); C39_tolerance_partial says exactly which wavelengths are accepted"
  },
  {
   "property": "C40",
   "status": "proved",
   "theorems": [
    "Lasy.C40_formula",
    "Lasy.C40_documented",
    "Lasy.C40_defaults"
   ],
   "note": ""
  },
  {
   "property": "C41",
   "status": "proved",
   "theorems": [
    "Lasy.C41_hermite_gauss",
    "Lasy.C41_gaussian",
    "Lasy.C41_beam"
   ],
   "note": "the Gaussian and all Hermite-Gauss modes"
  },
  {
   "property": "C42",
   "status": "partial",
   "theorems": [
    "Lasy.C42_gaussian",
    "Lasy.C42_super_gaussian_partial",
    "Lasy.C42_super_gaussian_refuted",
    "Lasy.C42_cosine"
   ],
   "note": "proved for the Gaussian and cosine profiles; false for the super-Gaussian documentation when the order is not 2 (C42_super_gaussian_refuted)"
  },
  {
   "property": "C43",
   "status": "proved",
   "theorems": [
    "Lasy.C43_support"
   ],
   "note": ""
  },
  {
   "property": "C44",
   "status": "partial",
   "theorems": [
    "Lasy.C44_leaf_partial",
    "Lasy.C44_refuted",
    "Lasy.C44_parts_partial"
   ],
   "note": "false for sums and multiples (C44_refuted: the offset of a summed or scaled profile is ignored); proved for plain profiles, and C44_parts_partial says what sums do"
  },
  {
   "property": "C45",
   "status": "partial",
   "theorems": [
    "Lasy.C45_rotation",
    "Lasy.C45_mirror_partial",
    "Lasy.C45_refuted"
   ],
   "note": "the rotation law is proved; the mirror image is false of the code out of focus (C45_refuted: the Gouy phase uses 2p+m instead of 2p+|m|), C45_mirror_partial gives the exact phase"
  },
  {
   "property": "C46",
   "status": "proved",
   "theorems": [
    "Lasy.C46_nodes_xyt",
    "Lasy.C46_either_direction",
    "Lasy.C46_bounded_xyt",
    "Lasy.C46_nodes_rt"
   ],
   "note": "xyt and rt, linear interpolation"
  },
  {
   "property": "C47",
   "status": "partial",
   "theorems": [
    "Lasy.C47_rt_refuted",
    "Lasy.C47_shape_refuted",
    "Lasy.C47_order_partial"
   ],
   "note": "false of the code: C47_rt_refuted (axes_order ['t','r'] raises AxisError) and C47_shape_refuted (t,y,x arrays whose lengths differ are rejected); C47_order_partial is what remains: where construction succeeds the profile is the one of the transposed array"
  },
  {
   "property": "C48",
   "status": "proved",
   "theorems": [
    "Lasy.C48_normalised",
    "Lasy.C48_evaluate",
    "Lasy.C48_centred"
   ],
   "note": "images with two rows and columns or more and no negative pixel; lo < hi"
  },
  {
   "property": "C49",
   "status": "partial",
   "theorems": [
    "Lasy.C49_samples",
    "Lasy.C49_hi_refuted",
    "Lasy.C49_descending_refuted"
   ],
   "note": "proved for increasing axes (C49_samples); the sample nearest hi is never kept (C49_hi_refuted), and for the decreasing axes the documentation allows every evaluation fails (C49_descending_refuted)"
  },
  {
   "property": "C50",
   "status": "proved",
   "theorems": [
    "Lasy.C50_inside",
    "Lasy.C50_translation",
    "Lasy.C50_scale",
    "Lasy.C50_width"
   ],
   "note": ""
  },
  {
   "property": "C51",
   "status": "proved",
   "theorems": [
    "Lasy.C51_index",
    "Lasy.C51_bijection"
   ],
   "note": "exact arithmetic for the square root"
  },
  {
   "property": "C52",
   "status": "proved",
   "theorems": [
    "Lasy.C52_radial",
    "Lasy.C52_odd",
    "Lasy.C52_ndim",
    "Lasy.C52_zernike"
   ],
   "note": "exact factorials"
  },
  {
   "property": "C53",
   "status": "proved",
   "theorems": [
    "Lasy.C53_detuned",
    "Lasy.C53_bounds"
   ],
   "note": "envelopes; unit of the average is the code's |field|^2 weighting"
  },
  {
   "property": "C54",
   "status": "partial",
   "theorems": [
    "Lasy.C54_roundtrip_partial",
    "Lasy.C54_refuted"
   ],
   "note": "false of the code for fields with samples that are exactly zero (C54_refuted); C54_roundtrip_partial proves the round trip where no clipping is active and the phase-rate of the field and of the potential agree"
  },
  {
   "property": "C55",
   "status": "partial",
   "theorems": [
    "Lasy.C55_energy_partial",
    "Lasy.C55_frequencies",
    "Lasy.C55_constructed",
    "Lasy.C55_refuted",
    "Lasy.C55_refuted_concrete"
   ],
   "note": "false of the code for several azimuthal modes (C55_refuted, C55_refuted_concrete: only mode 0 enters the spectrum); C55_energy_partial: on Cartesian grids or with one mode the spectrum integrates to the energy whenever the sampled band is non-negative; C55_constructed: so on every constructed laser"
  },
  {
   "property": "C56",
   "status": "proved",
   "theorems": [
    "Lasy.C56_duration",
    "Lasy.C56_duration_is_rms"
   ],
   "note": ""
  },
  {
   "property": "C57",
   "status": "partial",
   "theorems": [
    "Lasy.C57_shown_partial",
    "Lasy.C57_plane_partial",
    "Lasy.C57_profile_partial",
    "Lasy.C57_refuted"
   ],
   "note": "false of the code (C57_refuted: the lower half of the image is the field at -theta, not theta+pi); C57_shown_partial, C57_profile_partial say exactly what is shown, C57_plane_partial when that is the plane"
  },
  {
   "property": "C58",
   "status": "partial",
   "theorems": [
    "Lasy.C58_opposite_refuted",
    "Lasy.C58_refuted"
   ],
   "note": "false of the code: the central frequencies of E and -E are opposite (C58_opposite_refuted, for every nowhere-zero field; C58_refuted, an instance)"
  },
  {
   "property": "C59",
   "status": "partial",
   "theorems": [
    "Lasy.C59_refuted",
    "Lasy.C59_steps_partial",
    "Lasy.C59_nd_refuted"
   ],
   "note": "false of the code: the constructor raises for every array and metadata (C59_refuted); C59_steps_partial says which steps succeed on well-formed Cartesian data"
  },
  {
   "property": "C60",
   "status": "partial",
   "theorems": [
    "Lasy.C60_inputs_unchanged",
    "Lasy.C60_iterations",
    "Lasy.C60_no_iterations",
    "Lasy.C60_termination_refuted",
    "Lasy.C60_residual_refuted"
   ],
   "note": "proved: the inputs are never modified (C60_inputs_unchanged) and max_iterations is obeyed exactly (C60_iterations); false of the code: max_iterations <= 0 raises (C60_no_iterations), 'amplitude_error' ignores max_iterations and may never return (C60_termination_refuted) or stop at once whatever the residual (C60_residual_refuted)"
  },
  {
   "property": "C61",
   "status": "proved",
   "theorems": [
    "Lasy.C61_error_reduction"
   ],
   "note": "for a linear, norm-preserving propagator whose steps compose, and two lasers with the same transverse grid and frequencies"
  },
  {
   "property": "C62",
   "status": "proved",
   "theorems": [
    "Lasy.C62_static",
    "Lasy.C62_plate",
    "Lasy.C62_fm_ssd",
    "Lasy.C62_bounded"
   ],
   "note": "on Cartesian meshes; the bound for every array of positions"
  },
  {
   "property": "C63",
   "status": "proved",
   "theorems": [
    "Lasy.C63_isi",
    "Lasy.C63_ssd"
   ],
   "note": ""
  },
  {
   "property": "C64",
   "status": "partial",
   "theorems": [
    "Lasy.C64_rt_refuted",
    "Lasy.C64_rt_zero_refuted"
   ],
   "note": "false of the code: in rt geometry the field does not depend on the radius (C64_rt_refuted) and can vanish altogether (C64_rt_zero_refuted)"
  },
  {
   "property": "C65",
   "status": "partial",
   "theorems": [
    "Lasy.C65_window_partial",
    "Lasy.C65_bounds_partial",
    "Lasy.C65_offset_refuted",
    "Lasy.C65_data_refuted",
    "Lasy.C65_sum_refuted",
    "Lasy.C65_orders_refuted",
    "Lasy.C65_succeeds_partial"
   ],
   "note": "spacing, parity of the count, extent and success proved (C65_window_partial, C65_bounds_partial, C65_succeeds_partial); the rest is false of the code: wrong sign and confused axes of the offsets (C65_offset_refuted), x and y ranges exchanged for data (C65_data_refuted), AttributeError for sums (C65_sum_refuted), n_max itself left out (C65_orders_refuted)"
  },
  {
   "property": "C66",
   "status": "proved",
   "theorems": [
    "Lasy.C66_show_rt"
   ],
   "note": ""
  },
  {
   "property": "C67",
   "status": "partial",
   "theorems": [
    "Lasy.C67_resample_modes_partial",
    "Lasy.C67_refuted",
    "Lasy.C67_more_modes_refuted"
   ],
   "note": "false of the code: with fewer modes the components are mislabelled (C67_refuted) and with more modes the call always raises (C67_more_modes_refuted); equal mode counts are C67_resample_modes_partial"
  },
  {
   "property": "C68",
   "status": "partial",
   "theorems": [
    "Lasy.C68_refuted",
    "Lasy.C68_prefix_partial"
   ],
   "note": "false of the code (C68_refuted); C68_prefix_partial is what remains"
  },
  {
   "property": "C69",
   "status": "partial",
   "theorems": [
    "Lasy.C69_mean_partial",
    "Lasy.C69_one_mode_partial",
    "Lasy.C69_roundtrip_one_mode_partial",
    "Lasy.C69_refuted"
   ],
   "note": "false of the code for two azimuthal modes or more (C69_refuted: the mean over opposite angles drops odd modes); proved for one mode, and C69_mean_partial says exactly what is read in general"
  },
  {
   "property": "C70",
   "status": "partial",
   "theorems": [
    "Lasy.C70_add_partial",
    "Lasy.C70_mul_partial",
    "Lasy.C70_refuted"
   ],
   "note": "false when a part carries laser_energy (C70_refuted), since only the shape is added; proved for profiles without"
  },
  {
   "property": "C71",
   "status": "proved",
   "theorems": [
    "Lasy.C71_orthonormal"
   ],
   "note": ""
  },
  {
   "property": "C72",
   "status": "partial",
   "theorems": [
    "Lasy.C72_radial_partial",
    "Lasy.C72_corrected_partial",
    "Lasy.C72_refuted"
   ],
   "note": "false of the code for every m other than 0 (C72_refuted: the amplitude misses the factor |q|^-|m|, and the Gouy phase is wrong for m < 0); proved for m = 0, and C72_corrected_partial proves that the corrected mode solves the equation"
  },
  {
   "property": "C73",
   "status": "proved",
   "theorems": [
    "Lasy.C73_line"
   ],
   "note": "every detuning on the frequency grid"
  },
  {
   "property": "C74",
   "status": "proved",
   "theorems": [
    "Lasy.C74_history",
    "Lasy.C74_frequencies"
   ],
   "note": "all histories of constructor, apply_optics, normalize, propagate and resample"
  },
  {
   "property": "C75",
   "status": "partial",
   "theorems": [
    "Lasy.C75_slice_partial",
    "Lasy.C75_refuted",
    "Lasy.C75_extent_refuted"
   ],
   "note": "false of the code (C75_refuted, C75_extent_refuted); C75_slice_partial is what remains"
  },
  {
   "property": "C76",
   "status": "proved",
   "theorems": [
    "Lasy.C76_resampling"
   ],
   "note": ""
  },
  {
   "property": "C77",
   "status": "proved",
   "theorems": [
    "Lasy.C77_orthonormal"
   ],
   "note": "integral over the disc in Mathlib's measure theory"
  },
  {
   "property": "C78",
   "status": "partial",
   "theorems": [
    "Lasy.C78_position_partial",
    "Lasy.C78_refuted"
   ],
   "note": "false of the code (C78_refuted: int rounds towards zero, so images whose centre of mass is on different sides of the middle are moved differently); C78_position_partial covers centres of mass on the same side"
  },
  {
   "property": "C79",
   "status": "proved",
   "theorems": [
    "Lasy.C79_order"
   ],
   "note": ""
  },
  {
   "property": "C80",
   "status": "partial",
   "theorems": [
    "Lasy.C80_bounded",
    "Lasy.C80_peak_partial",
    "Lasy.C80_refuted"
   ],
   "note": "the bound is proved (C80_bounded); the peak at time zero is false for an odd number of samples (C80_refuted); C80_peak_partial says where the peak is"
  },
  {
   "property": "C81",
   "status": "partial",
   "theorems": [
    "Lasy.C81_components_partial",
    "Lasy.C81_data_samples_partial",
    "Lasy.C81_refuted"
   ],
   "note": "false of the code (C81_refuted: the frequency axis is mirrored); C81_components_partial says exactly which sum the profile is"
  },
  {
   "property": "C82",
   "status": "partial",
   "theorems": [
    "Lasy.C82_angular_partial",
    "Lasy.C82_refuted"
   ],
   "note": "false of the code (C82_refuted: the axis is used as an angular frequency); C82_angular_partial proves the claim for data against angular frequency"
  },
  {
   "property": "C83",
   "status": "proved",
   "theorems": [
    "Lasy.C83_represents"
   ],
   "note": ""
  },
  {
   "property": "C84",
   "status": "proved",
   "theorems": [
    "Lasy.C84_exact"
   ],
   "note": ""
  },
  {
   "property": "C85",
   "status": "partial",
   "theorems": [
    "Lasy.C85_grid_partial",
    "Lasy.C85_grid_rt_partial",
    "Lasy.C85_void_refuted",
    "Lasy.C85_refuted"
   ],
   "note": "false for the time axis (C85_void_refuted, C85_refuted); C85_grid_partial and C85_grid_rt_partial prove the rest for both geometries"
  },
  {
   "property": "C86",
   "status": "partial",
   "theorems": [
    "Lasy.C86_refuted",
    "Lasy.C86_signs_partial"
   ],
   "note": "false of the code: the frequency found is 0 for every time-symmetric pulse (C86_refuted)"
  },
  {
   "property": "C87",
   "status": "partial",
   "theorems": [
    "Lasy.C87_refuted"
   ],
   "note": "false of the code: always a TypeError (C87_refuted)"
  },
  {
   "property": "C88",
   "status": "proved",
   "theorems": [
    "Lasy.C88_rms",
    "Lasy.C88_zero_width"
   ],
   "note": ""
  },
  {
   "property": "C89",
   "status": "partial",
   "theorems": [
    "Lasy.C89_isi_wraps_refuted",
    "Lasy.C89_isi_error_refuted",
    "Lasy.C89_ssd_frozen_refuted"
   ],
   "note": "false of the code: GP ISI reads the series from its end or raises (C89_isi_wraps_refuted, C89_isi_error_refuted), GP RPM SSD is frozen (C89_ssd_frozen_refuted); non-negative axes: C63"
  },
  {
   "property": "C90",
   "status": "partial",
   "theorems": [
    "Lasy.C90_missing_refuted",
    "Lasy.C90_cycles_refuted",
    "Lasy.C90_accepted_partial",
    "Lasy.C90_zeros_partial",
    "Lasy.C90_nan_refuted"
   ],
   "note": "false of the code: TypeError instead of AssertionError (C90_missing_refuted, C90_cycles_refuted); an accepted zero amplitude gives nan everywhere (C90_nan_refuted); C90_accepted_partial and C90_zeros_partial prove the checks that work"
  },
  {
   "property": "C91",
   "status": "partial",
   "theorems": [
    "Lasy.C91_cpp_range_refuted"
   ],
   "note": "false of the code: half of the draws give a negative phase (C91_cpp_range_refuted); the interval actually used is in C62_plate"
  },
  {
   "property": "C92",
   "status": "proved",
   "theorems": [
    "Lasy.C92_fm_bandwidth"
   ],
   "note": ""
  },
  {
   "property": "C93",
   "status": "partial",
   "theorems": [
    "Lasy.C93_waist",
    "Lasy.C93_estimate_refuted"
   ],
   "note": "the waist is the best of the 30 scanned and the weights are overlap integrals (C93_waist); that the scan contains the first estimate is false (C93_estimate_refuted)"
  },
  {
   "property": "C94",
   "status": "partial",
   "theorems": [
    "Lasy.C94_conj_refuted",
    "Lasy.C94_focus_refuted",
    "Lasy.C94_imaginary_refuted"
   ],
   "note": "false of the code: only the real part and the modulus of the field matter (C94_conj_refuted, C94_focus_refuted, C94_imaginary_refuted)"
  },
  {
   "property": "C95",
   "status": "proved",
   "theorems": [
    "Lasy.C95_parity_x",
    "Lasy.C95_parity_y"
   ],
   "note": ""
  },
  {
   "property": "C96",
   "status": "partial",
   "theorems": [
    "Lasy.C96_scale",
    "Lasy.C96_sign_refuted"
   ],
   "note": "proved for positive factors (C96_scale); false for a change of sign (C96_sign_refuted)"
  },
  {
   "property": "C97",
   "status": "proved",
   "theorems": [
    "Lasy.C97_direct",
    "Lasy.C97_refused"
   ],
   "note": "error constant 6 instead of the sharp 1/3"
  },
  {
   "property": "C98",
   "status": "partial",
   "theorems": [
    "Lasy.C98_labels_partial",
    "Lasy.C98_refuted"
   ],
   "note": "proved for radial axes that start at 0 (C98_labels_partial); false otherwise (C98_refuted: no inner row is labelled with its radius)"
  },
  {
   "property": "C99",
   "status": "partial",
   "theorems": [
    "Lasy.C99_mirror",
    "Lasy.C99_axiparabola_partial",
    "Lasy.C99_axiparabola_refuted",
    "Lasy.C99_axicon_partial"
   ],
   "note": "mirror proved (C99_mirror); axiparabola: foci of all rays, exact at the centre, at the rim within a stated bound (C99_axiparabola_partial), strictly short of f0+delta (C99_axiparabola_refuted); axicon: slope 2 tan(gamma/2), between sin and tan of gamma (C99_axicon_partial)"
  },
  {
   "property": "C100",
   "status": "proved",
   "theorems": [
    "Lasy.C100_super_gaussian",
    "Lasy.C100_jinc"
   ],
   "note": "J1 is defined by its power series"
  },
  {
   "property": "C101",
   "status": "proved",
   "theorems": [
    "Lasy.C101_rt",
    "Lasy.C101_xyt"
   ],
   "note": ""
  },
  {
   "property": "C102",
   "status": "proved",
   "theorems": [
    "Lasy.C102_agree"
   ],
   "note": ""
  },
  {
   "property": "C103",
   "status": "partial",
   "theorems": [
    "Lasy.C103_full_partial",
    "Lasy.C103_envelope_refuted",
    "Lasy.C103_refuted"
   ],
   "note": "full fields: exact up to the phase exp(i omega t[0]) (C103_full_partial); false of the code for envelopes, whose raw spectrum is the complex conjugate (C103_envelope_refuted, C103_refuted)"
  },
  {
   "property": "C104",
   "status": "partial",
   "theorems": [
    "Lasy.C104_axis_partial",
    "Lasy.C104_even_refuted"
   ],
   "note": "grids with a sample on the axis: the one-sided density eps0 c/pi, twice the documented factor (C104_axis_partial); false of the code with even point counts, where a line half a step off the axis is used (C104_even_refuted)"
  },
  {
   "property": "C105",
   "status": "proved",
   "theorems": [
    "Lasy.C105_range",
    "Lasy.C105_empty",
    "Lasy.C105_ascending"
   ],
   "note": ""
  },
  {
   "property": "C106",
   "status": "partial",
   "theorems": [
    "Lasy.C106_energy_partial",
    "Lasy.C106_odd_refuted"
   ],
   "note": "fields whose lines are all at returned frequencies (C106_energy_partial); false of the code for odd numbers of samples: the highest positive frequency is dropped (C106_odd_refuted)"
  },
  {
   "property": "C107",
   "status": "proved",
   "theorems": [
    "Lasy.C107_field",
    "Lasy.C107_float"
   ],
   "note": ""
  },
  {
   "property": "C108",
   "status": "proved",
   "theorems": [
    "Lasy.C108_carrier"
   ],
   "note": ""
  },
  {
   "property": "C109",
   "status": "partial",
   "theorems": [
    "Lasy.C109_peak_partial",
    "Lasy.C109_peak_refuted"
   ],
   "note": "false of the code (C109_peak_refuted): it is the local frequency at the strongest sample in time (C109_peak_partial)"
  },
  {
   "property": "C110",
   "status": "proved",
   "theorems": [
    "Lasy.Heap.C110_isolated",
    "Lasy.Heap.C110_window",
    "Lasy.Heap.C110_shared"
   ],
   "note": "heap model with object identities; C110_shared: the condition is needed"
  },
  {
   "property": "C111",
   "status": "partial",
   "theorems": [
    "Lasy.Heap.C111_refuted",
    "Lasy.Heap.C111_left_partial"
   ],
   "note": "false of the code (C111_refuted: the old grid shares its time axis array with the new one, so the axis moves and the bounds do not); bounds and field do stay, and the axis moves by what the laser travels (C111_left_partial)"
  },
  {
   "property": "C112",
   "status": "proved",
   "theorems": [
    "Lasy.C112_round_trip"
   ],
   "note": "for fields the external propagator carries without diffraction (explicit contract on axiprop with z0=t0=0, met by an angular-spectrum propagator on transversely uniform fields); real diffraction is not modelled"
  },
  {
   "property": "C113",
   "status": "proved",
   "theorems": [
    "Lasy.C113_export",
    "Lasy.C113_samples",
    "Lasy.C113_reversed"
   ],
   "note": "under the same contract as C112"
  },
  {
   "property": "C114",
   "status": "proved",
   "theorems": [
    "Lasy.C114_import",
    "Lasy.C114_round_trip"
   ],
   "note": "under the same contract as C112"
  },
  {
   "property": "C115",
   "status": "proved",
   "theorems": [
    "Lasy.C115_energy"
   ],
   "note": "under the same contract as C112"
  },
  {
   "property": "C116",
   "status": "partial",
   "theorems": [
    "Lasy.C116_full_field_refused",
    "Lasy.C116_export_rt_refused",
    "Lasy.C116_refuted"
   ],
   "note": "import refuses; export refuses in rt (TypeError from NumPy) but accepts full fields in Cartesian geometry (C116_refuted)"
  },
  {
   "property": "C117",
   "status": "proved",
   "theorems": [
    "Lasy.C117_lens_gaussian",
    "Lasy.C117_lens_hermite",
    "Lasy.C117_lens_laguerre",
    "Lasy.C117_focus"
   ],
   "note": "at the centre frequency, paraxial modes; the mirror is the multiplier of the code at that frequency"
  },
  {
   "property": "C118",
   "status": "proved",
   "theorems": [
    "Lasy.C118_gaussian_spectrum",
    "Lasy.C118_chirped_gaussian"
   ],
   "note": "on the continuous time axis (the pulse of a spectrum is its Fourier integral); the discrete transform is covered by C22/C99"
  },
  {
   "property": "C119",
   "status": "proved",
   "theorems": [
    "Lasy.C119_group_delay",
    "Lasy.C119_arrives_later"
   ],
   "note": "on the continuous time axis, for smooth spectra of bounded support"
  },
  {
   "property": "C120",
   "status": "partial",
   "theorems": [
    "Lasy.C120_orthogonal",
    "Lasy.C120_energy_partial",
    "Lasy.C120_energy_factor_partial",
    "Lasy.C120_energy_refuted"
   ],
   "note": "orthogonality holds (C120_orthogonal); the energy depends on the focal plane for m != 0 (C120_energy_refuted), and does not for m = 0 (C120_energy_partial)"
  },
  {
   "property": "C121",
   "status": "partial",
   "theorems": [
    "Lasy.C121_refused_partial",
    "Lasy.C121_refuted"
   ],
   "note": "the comparison is absolute with tolerance 1e-8 m: refuted for small pixels (C121_refuted); C121_refused_partial proves refusal when the difference exceeds the tolerance"
  },
  {
   "property": "C122",
   "status": "proved",
   "theorems": [
    "Lasy.C122_angular_mean",
    "Lasy.C122_angular_bound",
    "Lasy.C122_all_angles"
   ],
   "note": "the discrete mean over sampled angles (C122_angular_mean, C122_angular_bound) and the integral over all angles for band-limited profiles (C122_all_angles)"
  },
  {
   "property": "C123",
   "status": "proved",
   "theorems": [
    "Lasy.C123_rotation",
    "Lasy.C123_rotation_band"
   ],
   "note": "any multiple of the angular step (C123_rotation); any angle for profiles within the modes of the grid (C123_rotation_band)"
  },
  {
   "property": "C124",
   "status": "proved",
   "theorems": [
    "Lasy.C124_symmetry"
   ],
   "note": "y-symmetry, real profiles, axisymmetry"
  },
  {
   "property": "C125",
   "status": "partial",
   "theorems": [
    "Lasy.C125_xyt_partial",
    "Lasy.C125_rt_full_partial",
    "Lasy.C125_rt_envelope_refuted"
   ],
   "note": "holds in xyt (C125_xyt_partial) and for real fields in rt (C125_rt_full_partial); for envelopes in rt the volume is left out of the weights (C125_rt_envelope_refuted)"
  },
  {
   "property": "C126",
   "status": "proved",
   "theorems": [
    "Lasy.C126_energy_xyt",
    "Lasy.C126_energy_rt",
    "Lasy.C126_energy_disc",
    "Lasy.C126_geometries_agree"
   ],
   "note": "box (C126_energy_xyt), cylinder (C126_energy_rt, C126_energy_disc), both geometries agree (C126_geometries_agree)"
  },
  {
   "property": "C127",
   "status": "proved",
   "theorems": [
    "Lasy.C127_duration_xyt",
    "Lasy.C127_duration_rt"
   ],
   "note": "both geometries"
  },
  {
   "property": "C128",
   "status": "proved",
   "theorems": [
    "Lasy.C128_superposition"
   ],
   "note": ""
  },
  {
   "property": "C129",
   "status": "proved",
   "theorems": [
    "Lasy.C129_there_and_back"
   ],
   "note": ""
  },
  {
   "property": "C130",
   "status": "proved",
   "theorems": [
    "Lasy.C130_moved_xyt",
    "Lasy.C130_delayed_rt",
    "Lasy.C130_t_peak",
    "Lasy.C130_gaussian_rt"
   ],
   "note": "box (C130_moved_xyt), cylinder (C130_delayed_rt), longitudinal profiles (C130_t_peak), Gaussian pulses (C130_gaussian_rt)"
  },
  {
   "property": "C131",
   "status": "proved",
   "theorems": [
    "Lasy.C131_field_xyt",
    "Lasy.C131_field_rt",
    "Lasy.C131_round"
   ],
   "note": "Uniform convergence at all grid points in both geometries; C131_round for round profiles with any number of modes. laser_energy is scaled by the code from the sampled energy."
  },
  {
   "property": "C132",
   "status": "proved",
   "theorems": [
    "Lasy.C132_modes"
   ],
   "note": "Uniform in the grid points and in the number of modes."
  },
  {
   "property": "C133",
   "status": "proved",
   "theorems": [
    "Lasy.C133_gaussian_xyt",
    "Lasy.C133_gaussian_rt"
   ],
   "note": "Both geometries, z_foc arbitrary; exact Gaussian integrals, sandwich between growing boxes."
  },
  {
   "property": "C134",
   "status": "proved",
   "theorems": [
    "Lasy.C134_separable",
    "Lasy.C134_fine",
    "Lasy.C134_window",
    "Lasy.C134_gaussian",
    "Lasy.C134_super_gaussian",
    "Lasy.C134_cosine"
   ],
   "note": "exact independence of everything transverse (C134_separable), uniform convergence on fine grids (C134_fine) and in large windows (C134_window), the three closed forms"
  },
  {
   "property": "C135",
   "status": "proved",
   "theorems": [
    "Lasy.C135_power",
    "Lasy.C135_period"
   ],
   "note": "Every draw, every time; orthogonality of the beamlets' phase factors over one period."
  },
  {
   "property": "C136",
   "status": "proved",
   "theorems": [
    "Lasy.C136_correlation",
    "Lasy.C136_mean_intensity",
    "Lasy.C136_width",
    "Lasy.C136_contrast"
   ],
   "note": "Probability-theoretic: independent draws on any probability space, smoothing draws held fixed; draws of that kind are shown to exist."
  },
  {
   "property": "C137",
   "status": "proved",
   "theorems": [
    "Lasy.C137_exact_stays",
    "Lasy.C137_flat"
   ],
   "note": "Any number of further iterations, by induction; flat-phase beams are found at once under both conditions."
  },
  {
   "property": "C138",
   "status": "proved",
   "theorems": [
    "Lasy.C138_fundamental",
    "Lasy.C138_super_gaussian",
    "Lasy.C138_laguerre_hermite"
   ],
   "note": "Exact identities at every point and defocus; the Laguerre-Hermite relation by induction on p with a raising operator."
  },
  {
   "property": "C139",
   "status": "proved",
   "theorems": [
    "Lasy.C139_restart_xyt",
    "Lasy.C139_restart_rt"
   ],
   "note": "Cartesian lasers, and cylindrical ones with one mode (more modes lose information on reading, C69_refuted); any history before and after the checkpoint, one backend."
  },
  {
   "property": "C140",
   "status": "proved",
   "theorems": [
    "Lasy.C140_assertions",
    "Lasy.C140_missing_axis",
    "Lasy.C140_bad_axis"
   ],
   "note": "Arrays with more dimensions than axes and axes with one point, which SciPy accepts, are outside the statement."
  },
  {
   "property": "C141",
   "status": "proved",
   "theorems": [
    "Lasy.C141_last_normalisation",
    "Lasy.C141_commutes"
   ],
   "note": "kinds energy and field (intensity is refuted in C17); linearity (and for the second theorem unitarity) of axiprop's steps is assumed, and met by the free-space propagator of Lemmas/AxipropWitness"
  },
  {
   "property": "C142",
   "status": "proved",
   "theorems": [
    "Lasy.C142_separable",
    "Lasy.C142_chirped_gaussian",
    "Lasy.C142_filter",
    "Lasy.C142_converges"
   ],
   "note": "explicit mean-square bound for any element at any cell whose pulse, spectrum and filtered pulse are localised, convergence in large windows with fine axes, separable pulses, and the chirped Gaussian"
  },
  {
   "property": "C143",
   "status": "proved",
   "theorems": [
    "Lasy.C143_filtered",
    "Lasy.C143_chirped_gaussian"
   ],
   "note": "any space-independent filter of a separable pulse; the chirped Gaussian of duration tau*sqrt(1+(2 gdd/tau^2)^2) as instance"
  },
  {
   "property": "C144",
   "status": "proved",
   "theorems": [
    "Lasy.C144_raw",
    "Lasy.C144_separable",
    "Lasy.C144_range",
    "Lasy.C144_energy",
    "Lasy.C144_energy_range",
    "Lasy.C144_gaussian"
   ],
   "note": "raw amplitude with an explicit bound for every pulse; sum and on_axis for separable pulses, with and without a range; energy; Gaussian as instance"
  },
  {
   "property": "C145",
   "status": "proved",
   "theorems": [
    "Lasy.C145_barycenter",
    "Lasy.C145_fine"
   ],
   "note": "exact formula on every uniform axis that resolves the phase; the limit for smooth pulses without that assumption"
  },
  {
   "property": "C146",
   "status": "partial",
   "theorems": [
    "Lasy.C146_transverse_phase_refuted",
    "Lasy.C146_time_partial",
    "Lasy.C146_everywhere_partial",
    "Lasy.C146_rt_partial",
    "Lasy.C146_fine_partial",
    "Lasy.C146_zeros_partial"
   ],
   "note": "false of the code between transverse nodes (transverse_phase_refuted, at every resolution); proved in time, and everywhere when the phases at the first time do not cross the cut of np.angle; and where the array is zero (C146_zeros_partial)"
  },
  {
   "property": "C147",
   "status": "proved",
   "theorems": [
    "Lasy.C147_center",
    "Lasy.C147_d4sigma",
    "Lasy.C147_profile",
    "Lasy.C147_centred"
   ],
   "note": "centred profile: uniform on the part of the window that comes from inside the camera window (np.roll wraps the rest)"
  },
  {
   "property": "C148",
   "status": "proved",
   "theorems": [
    "Lasy.C148_chirp",
    "Lasy.C148_fine",
    "Lasy.C148_vector_potential"
   ],
   "note": "exact for linear chirps on any increasing axis; uniform limit for smooth phases on Cartesian grids (in rt the central frequency of envelopes lacks the volume weight, see C125)"
  },
  {
   "property": "C149",
   "status": "proved",
   "theorems": [
    "Lasy.C149_represents",
    "Lasy.C149_same_signal",
    "Lasy.C149_missing",
    "Lasy.C149_envelope",
    "Lasy.C149_offset",
    "Lasy.C149_off"
   ],
   "note": "scikit-image's unwrap_phase is an arbitrary function in every theorem"
  },
  {
   "property": "C150",
   "status": "proved",
   "theorems": [
    "Lasy.C150_overlap",
    "Lasy.C150_bessel"
   ],
   "note": "accuracy in the limit of fine resolution; the estimate of the waist is one of the 30 candidates, no claim on which"
  },
  {
   "property": "C151",
   "status": "proved",
   "theorems": [
    "Lasy.C151_pulse_xyt",
    "Lasy.C151_pulse_rt",
    "Lasy.C151_sum_xyt",
    "Lasy.C151_sum_rt",
    "Lasy.C151_hermite_xyt",
    "Lasy.C151_hermite_rt",
    "Lasy.C151_laguerre_xyt",
    "Lasy.C151_laguerre_rt"
   ],
   "note": "in the limit of large boxes and fine grids, both geometries"
  },
  {
   "property": "C152",
   "status": "proved",
   "theorems": [
    "Lasy.C152_temporal",
    "Lasy.C152_no_phase"
   ],
   "note": "temporal data; spectral data are C81, C82 (refuted)"
  },
  {
   "property": "C153",
   "status": "proved",
   "theorems": [
    "Lasy.C153_energy",
    "Lasy.C153_energy_nd",
    "Lasy.C153_bounds"
   ],
   "note": "exact identity on the samples; the missing part is given explicitly"
  },
  {
   "property": "C154",
   "status": "proved",
   "theorems": [
    "Lasy.C154_stable",
    "Lasy.C154_energy",
    "Lasy.C154_gain"
   ],
   "note": "given a linear, norm-preserving external propagator; propagate without resampling"
  },
  {
   "property": "C155",
   "status": "partial",
   "theorems": [
    "Lasy.C155_bounds_partial",
    "Lasy.C155_refuted"
   ],
   "note": "Refuted: the code takes the maximum over the stored modes. For every profile x G(x^2+y^2, t) that does not vanish on the grid, with at least two modes, the peak after normalize(A, 'field') is 2A (C155_refuted). What holds (C155_bounds_partial): the peak is between A and (2n-1)A, and exactly A with one mode."
  },
  {
   "property": "C156",
   "status": "proved",
   "theorems": [
    "Lasy.C156_field_xyt",
    "Lasy.C156_gaussian_xyt",
    "Lasy.C156_field_rt",
    "Lasy.C156_gaussian_rt"
   ],
   "note": "Cartesian grids, and round profiles on cylindrical grids; limit statements with all quantifiers explicit"
  },
  {
   "property": "C157",
   "status": "proved",
   "theorems": [
    "Lasy.C157_round",
    "Lasy.C157_gaussian",
    "Lasy.C157_xyt",
    "Lasy.C157_gaussian_xyt"
   ],
   "note": "round beams on cylindrical grids, beams of any shape on Cartesian grids; limit statements with all quantifiers explicit"
  },
  {
   "property": "C158",
   "status": "proved",
   "theorems": [
    "Lasy.C158_unchirped",
    "Lasy.C158_file",
    "Lasy.C158_gaussian_xyt",
    "Lasy.C158_gaussian_rt",
    "Lasy.C158_file_rt",
    "Lasy.C158_separable",
    "Lasy.C158_built_in"
   ],
   "note": "exact for unchirped fields, for files of both geometries and for the built-in longitudinal profiles; limit statements with all quantifiers explicit for Gaussian pulses of given energy"
  },
  {
   "property": "C159",
   "status": "proved",
   "theorems": [
    "Lasy.C159_plane",
    "Lasy.C159_index",
    "Lasy.C159_no_extrapolation"
   ],
   "note": "describes what the code does outside the documented range -1/2..1/2 too; C75 is the property users expect"
  },
  {
   "property": "C160",
   "status": "proved",
   "theorems": [
    "Lasy.C160_fine_rt_angles",
    "Lasy.C160_xyt",
    "Lasy.C160_rt",
    "Lasy.C160_fine_xyt",
    "Lasy.C160_fine_rt"
   ],
   "note": "constant 10 is not sharp; on cylindrical grids the limit statement is for round profiles at every angle and for all profiles at the sampled angles, the error bound for all fields"
  },
  {
   "property": "C161",
   "status": "proved",
   "theorems": [
    "Lasy.C161_complete"
   ],
   "note": "rests on the completeness of the Hermite functions in L2 of the plane, proved in Lemmas/HermiteComplete; limit statement with all quantifiers explicit"
  },
  {
   "property": "C162",
   "status": "proved",
   "theorems": [
    "Lasy.C162_any_beam",
    "Lasy.C162_mode_width",
    "Lasy.C162_vortex_width"
   ],
   "note": ""
  }
 ]
}