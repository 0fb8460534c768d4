C01 | proved | refinement of the grid's two caches to one register, all histories
C02 | proved | corollary of the refinement, both reading orders
C03 | proved | corollary of the refinement
C05 | proved | rejected setter calls leave the object equal; unset grid refuses reads for ever
C06 | partial | false of the code: C06_refuted gives a history after which the two views disagree; the partial theorem covers histories whose last call before the switch is an accepted write
C07 | proved | both directions, every state and every Nt
C08 | proved | for the pair returned by the getters in every reachable state
C09 | proved | uniform axes, end points, step; axes with fewer than 2 points rejected
C04 | proved | refinement of a heap model with array references to a value semantics, all interleavings of caller writes and grid calls
C10 | proved |
C11 | proved | both geometries
C12 | proved | all profiles acting point by point; any admissible number of angles, including the default
C13 | proved |
C14 | proved | compared with the laser built from the same profile without laser_energy
C15 | proved |
C16 | proved |
C17 | partial | false of the code: normalize(kind='intensity') raises AssertionError for every non-zero field (C17_refuted); the partial theorem covers the zero field
C18 | proved |
C66 | proved |
C19 | proved |
C20 | proved | the axiparabola bound assumes nonnegative cell volumes, which C11 gives for every constructed grid with lo<hi and r0>=0
C21 | proved |
C22 | partial | false of the axicon: the code has the factor 2/c which the documented multiplier lacks (C22_axicon_refuted); what the axicon does is C22_axicon_partial; mirror and spectral phase are proved
C23 | proved |
C24 | proved |
C25 | proved | relative to the contract Axiprop.Additive on the external axiprop propagator (witness: Axiprop.freeSpace)
C26 | proved |
C27 | proved | relative to the contract Axiprop.Unitary on the external axiprop propagator (witness: Axiprop.freeSpace)
C28 | proved |
C29 | partial | false of the code: the backend argument of a later call is ignored once a propagator is cached (C29_refuted); what does hold is C29_backend_partial
C30 | proved |
C31 | partial | false of the code: after propagate(grid=g) the cached propagator keeps the old radial grid / dx (C31_refuted); the first resampled call is C31_resampled_partial
C32 | partial | false of the code: a resample that fails half way leaves a laser whose field is lost (C32_refuted); the failures that do leave the laser intact are C32_failure_partial, C32_failure_layer_partial
C67 | partial | false of the code: with fewer modes the components are mislabelled (C67_refuted) and with more modes the call always raises (C67_more_modes_refuted); equal mode counts are C67_resample_modes_partial
C46 | proved | xyt and rt, linear interpolation
C47 | partial | false of the code: C47_rt_refuted (axes_order ['t','r'] raises AxisError) and C47_shape_refuted (t,y,x arrays whose lengths differ are rejected); C47_order_partial is what remains: where construction succeeds the profile is the one of the transposed array
C53 | proved | envelopes; unit of the average is the code's |field|^2 weighting
C54 | partial | false of the code for fields with samples that are exactly zero (C54_refuted); C54_roundtrip_partial proves the round trip where no clipping is active and the phase-rate of the field and of the potential agree
C56 | proved |
C33 | proved |
C34 | proved | axes of regular grids: every constructed laser after any propagations (C34_premises)
C35 | proved |
C36 | proved | Cartesian and, for z data, cylindrical; the cylindrical round trip is C69
C68 | partial | false of the code (C68_refuted); C68_prefix_partial is what remains
C69 | partial | false of the code for two azimuthal modes or more (C69_refuted: the mean over opposite angles drops odd modes); proved for one mode, and C69_mean_partial says exactly what is read in general
C37 | proved |
C38 | proved | values, factors, acceptance, and no imaginary part lost
C39 | partial | false of the code (C39_refuted: 800 nm and 809 nm are added, numpy's isclose compares with an absolute tolerance of 1e-8 metres); C39_tolerance_partial says exactly which wavelengths are accepted
C40 | proved |
C42 | partial | proved for the Gaussian and cosine profiles; false for the super-Gaussian documentation when the order is not 2 (C42_super_gaussian_refuted)
C43 | proved |
C44 | partial | false for sums and multiples (C44_refuted: the offset of a summed or scaled profile is ignored); proved for plain profiles, and C44_parts_partial says what sums do
C70 | partial | false when a part carries laser_energy (C70_refuted), since only the shape is added; proved for profiles without
C41 | proved | the Gaussian and all Hermite-Gauss modes
C45 | partial | the rotation law is proved; the mirror image is false of the code out of focus (C45_refuted: the Gouy phase uses 2p+m instead of 2p+|m|), C45_mirror_partial gives the exact phase
C71 | proved |
C72 | partial | false of the code for every m other than 0 (C72_refuted: the amplitude misses the factor |q|^-|m|, and the Gouy phase is wrong for m < 0); proved for m = 0, and C72_corrected_partial proves that the corrected mode solves the equation
C55 | partial | false of the code for several azimuthal modes (C55_refuted, C55_refuted_concrete: only mode 0 enters the spectrum); C55_energy_partial: on Cartesian grids or with one mode the spectrum integrates to the energy whenever the sampled band is non-negative; C55_constructed: so on every constructed laser
C57 | partial | false of the code (C57_refuted: the lower half of the image is the field at -theta, not theta+pi); C57_shown_partial, C57_profile_partial say exactly what is shown, C57_plane_partial when that is the plane
C73 | proved | every detuning on the frequency grid
C74 | proved | all histories of constructor, apply_optics, normalize, propagate and resample
C75 | partial | false of the code (C75_refuted, C75_extent_refuted); C75_slice_partial is what remains
C76 | proved |
C48 | proved | images with two rows and columns or more and no negative pixel; lo < hi
C50 | proved |
C51 | proved | exact arithmetic for the square root
C52 | proved | exact factorials
C77 | proved | integral over the disc in Mathlib's measure theory
C78 | partial | false of the code (C78_refuted: int rounds towards zero, so images whose centre of mass is on different sides of the middle are moved differently); C78_position_partial covers centres of mass on the same side
C49 | partial | proved for increasing axes (C49_samples); the sample nearest hi is never kept (C49_hi_refuted), and for the decreasing axes the documentation allows every evaluation fails (C49_descending_refuted)
C79 | proved |
C80 | partial | the bound is proved (C80_bounded); the peak at time zero is false for an odd number of samples (C80_refuted); C80_peak_partial says where the peak is
C81 | partial | false of the code (C81_refuted: the frequency axis is mirrored); C81_components_partial says exactly which sum the profile is
C82 | partial | false of the code (C82_refuted: the axis is used as an angular frequency); C82_angular_partial proves the claim for data against angular frequency
C58 | partial | false of the code: the central frequencies of E and -E are opposite (C58_opposite_refuted, for every nowhere-zero field; C58_refuted, an instance)
C59 | partial | false of the code: the constructor raises for every array and metadata (C59_refuted); C59_steps_partial says which steps succeed on well-formed Cartesian data
C83 | proved |
C84 | proved |
C85 | partial | false for the time axis (C85_void_refuted, C85_refuted); C85_grid_partial and C85_grid_rt_partial prove the rest for both geometries
C86 | partial | false of the code: the frequency found is 0 for every time-symmetric pulse (C86_refuted)
C87 | partial | false of the code: always a TypeError (C87_refuted)
C60 | partial | proved: the inputs are never modified (C60_inputs_unchanged) and max_iterations is obeyed exactly (C60_iterations); false of the code: max_iterations <= 0 raises (C60_no_iterations), 'amplitude_error' ignores max_iterations and may never return (C60_termination_refuted) or stop at once whatever the residual (C60_residual_refuted)
C61 | proved | for a linear, norm-preserving propagator whose steps compose, and two lasers with the same transverse grid and frequencies
C62 | proved | on Cartesian meshes; the bound for every array of positions
C63 | proved |
C64 | partial | false of the code: in rt geometry the field does not depend on the radius (C64_rt_refuted) and can vanish altogether (C64_rt_zero_refuted)
C88 | proved |
C89 | partial | false of the code: GP ISI reads the series from its end or raises (C89_isi_wraps_refuted, C89_isi_error_refuted), GP RPM SSD is frozen (C89_ssd_frozen_refuted); non-negative axes: C63
C90 | partial | false of the code: TypeError instead of AssertionError (C90_missing_refuted, C90_cycles_refuted); an accepted zero amplitude gives nan everywhere (C90_nan_refuted); C90_accepted_partial and C90_zeros_partial prove the checks that work
C91 | partial | false of the code: half of the draws give a negative phase (C91_cpp_range_refuted); the interval actually used is in C62_plate
C92 | proved |
C65 | partial | spacing, parity of the count, extent and success proved (C65_window_partial, C65_bounds_partial, C65_succeeds_partial); the rest is false of the code: wrong sign and confused axes of the offsets (C65_offset_refuted), x and y ranges exchanged for data (C65_data_refuted), AttributeError for sums (C65_sum_refuted), n_max itself left out (C65_orders_refuted)
C93 | partial | the waist is the best of the 30 scanned and the weights are overlap integrals (C93_waist); that the scan contains the first estimate is false (C93_estimate_refuted)
C94 | partial | false of the code: only the real part and the modulus of the field matter (C94_conj_refuted, C94_focus_refuted, C94_imaginary_refuted)
C95 | proved |
C96 | partial | proved for positive factors (C96_scale); false for a change of sign (C96_sign_refuted)
C97 | proved | error constant 6 instead of the sharp 1/3
C98 | partial | proved for radial axes that start at 0 (C98_labels_partial); false otherwise (C98_refuted: no inner row is labelled with its radius)
C99 | partial | mirror proved (C99_mirror); axiparabola: foci of all rays, exact at the centre, at the rim within a stated bound (C99_axiparabola_partial), strictly short of f0+delta (C99_axiparabola_refuted); axicon: slope 2 tan(gamma/2), between sin and tan of gamma (C99_axicon_partial)
C100 | proved | J1 is defined by its power series
C101 | proved |
C102 | proved |
C103 | partial | full fields: exact up to the phase exp(i omega t[0]) (C103_full_partial); false of the code for envelopes, whose raw spectrum is the complex conjugate (C103_envelope_refuted, C103_refuted)
C104 | partial | grids with a sample on the axis: the one-sided density eps0 c/pi, twice the documented factor (C104_axis_partial); false of the code with even point counts, where a line half a step off the axis is used (C104_even_refuted)
C105 | proved |
C106 | partial | fields whose lines are all at returned frequencies (C106_energy_partial); false of the code for odd numbers of samples: the highest positive frequency is dropped (C106_odd_refuted)
C107 | proved |
C108 | proved |
C109 | partial | false of the code (C109_peak_refuted): it is the local frequency at the strongest sample in time (C109_peak_partial)
C110 | proved | heap model with object identities; C110_shared: the condition is needed
C111 | partial | false of the code (C111_refuted: the old grid shares its time axis array with the new one, so the axis moves and the bounds do not); bounds and field do stay, and the axis moves by what the laser travels (C111_left_partial)
C112 | proved | for fields the external propagator carries without diffraction (explicit contract on axiprop with z0=t0=0, met by an angular-spectrum propagator on transversely uniform fields); real diffraction is not modelled
C113 | proved | under the same contract as C112
C114 | proved | under the same contract as C112
C115 | proved | under the same contract as C112
C116 | partial | import refuses; export refuses in rt (TypeError from NumPy) but accepts full fields in Cartesian geometry (C116_refuted)
C117 | proved | at the centre frequency, paraxial modes; the mirror is the multiplier of the code at that frequency
C118 | proved | on the continuous time axis (the pulse of a spectrum is its Fourier integral); the discrete transform is covered by C22/C99
C119 | proved | on the continuous time axis, for smooth spectra of bounded support
C120 | partial | orthogonality holds (C120_orthogonal); the energy depends on the focal plane for m != 0 (C120_energy_refuted), and does not for m = 0 (C120_energy_partial)
C121 | partial | the comparison is absolute with tolerance 1e-8 m: refuted for small pixels (C121_refuted); C121_refused_partial proves refusal when the difference exceeds the tolerance
C122 | proved | the discrete mean over sampled angles (C122_angular_mean, C122_angular_bound) and the integral over all angles for band-limited profiles (C122_all_angles)
C123 | proved | any multiple of the angular step (C123_rotation); any angle for profiles within the modes of the grid (C123_rotation_band)
C124 | proved | y-symmetry, real profiles, axisymmetry
C125 | partial | holds in xyt (C125_xyt_partial) and for real fields in rt (C125_rt_full_partial); for envelopes in rt the volume is left out of the weights (C125_rt_envelope_refuted)
C126 | proved | box (C126_energy_xyt), cylinder (C126_energy_rt, C126_energy_disc), both geometries agree (C126_geometries_agree)
C127 | proved | both geometries
C128 | proved | 
C129 | proved | 
C130 | proved | box (C130_moved_xyt), cylinder (C130_delayed_rt), longitudinal profiles (C130_t_peak), Gaussian pulses (C130_gaussian_rt)
C131 | proved | Uniform convergence at all grid points in both geometries; C131_round for round profiles with any number of modes. laser_energy is scaled by the code from the sampled energy.
C132 | proved | Uniform in the grid points and in the number of modes.
C133 | proved | Both geometries, z_foc arbitrary; exact Gaussian integrals, sandwich between growing boxes.
C134 | proved | exact independence of everything transverse (C134_separable), uniform convergence on fine grids (C134_fine) and in large windows (C134_window), the three closed forms
C135 | proved | Every draw, every time; orthogonality of the beamlets' phase factors over one period.
C136 | proved | Probability-theoretic: independent draws on any probability space, smoothing draws held fixed; draws of that kind are shown to exist.
C137 | proved | Any number of further iterations, by induction; flat-phase beams are found at once under both conditions.
C138 | proved | Exact identities at every point and defocus; the Laguerre-Hermite relation by induction on p with a raising operator.
C139 | proved | Cartesian lasers, and cylindrical ones with one mode (more modes lose information on reading, C69_refuted); any history before and after the checkpoint, one backend.
C140 | proved | Arrays with more dimensions than axes and axes with one point, which SciPy accepts, are outside the statement.
C141 | proved | kinds energy and field (intensity is refuted in C17); linearity (and for the second theorem unitarity) of axiprop's steps is assumed, and met by the free-space propagator of Lemmas/AxipropWitness
C142 | proved | explicit mean-square bound for any element at any cell whose pulse, spectrum and filtered pulse are localised, convergence in large windows with fine axes, separable pulses, and the chirped Gaussian
C143 | proved | any space-independent filter of a separable pulse; the chirped Gaussian of duration tau*sqrt(1+(2 gdd/tau^2)^2) as instance
C144 | proved | raw amplitude with an explicit bound for every pulse; sum and on_axis for separable pulses, with and without a range; energy; Gaussian as instance
C145 | proved | exact formula on every uniform axis that resolves the phase; the limit for smooth pulses without that assumption
C146 | partial | false of the code between transverse nodes (transverse_phase_refuted, at every resolution); proved in time, and everywhere when the phases at the first time do not cross the cut of np.angle; and where the array is zero (C146_zeros_partial)
C147 | proved | centred profile: uniform on the part of the window that comes from inside the camera window (np.roll wraps the rest)
C148 | proved | exact for linear chirps on any increasing axis; uniform limit for smooth phases on Cartesian grids (in rt the central frequency of envelopes lacks the volume weight, see C125)
C149 | proved | scikit-image's unwrap_phase is an arbitrary function in every theorem
C150 | proved | accuracy in the limit of fine resolution; the estimate of the waist is one of the 30 candidates, no claim on which
C151 | proved | in the limit of large boxes and fine grids, both geometries
C152 | proved | temporal data; spectral data are C81, C82 (refuted)
C153 | proved | exact identity on the samples; the missing part is given explicitly
C154 | proved | given a linear, norm-preserving external propagator; propagate without resampling
C155 | partial | Refuted: the code takes the maximum over the stored modes. For every profile x G(x^2+y^2, t) that does not vanish on the grid, with at least two modes, the peak after normalize(A, 'field') is 2A (C155_refuted). What holds (C155_bounds_partial): the peak is between A and (2n-1)A, and exactly A with one mode.
C156 | proved | Cartesian grids, and round profiles on cylindrical grids; limit statements with all quantifiers explicit
C157 | proved | round beams on cylindrical grids, beams of any shape on Cartesian grids; limit statements with all quantifiers explicit
C158 | proved | exact for unchirped fields, for files of both geometries and for the built-in longitudinal profiles; limit statements with all quantifiers explicit for Gaussian pulses of given energy
C159 | proved | describes what the code does outside the documented range -1/2..1/2 too; C75 is the property users expect
C160 | proved | constant 10 is not sharp; on cylindrical grids the limit statement is for round profiles at every angle and for all profiles at the sampled angles, the error bound for all fields
C161 | proved | rests on the completeness of the Hermite functions in L2 of the plane, proved in Lemmas/HermiteComplete; limit statement with all quantifiers explicit
C162 | proved |
