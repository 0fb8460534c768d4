{"id": "C01", "title": "Grid is a read-your-writes register for the field", "statement": "After any history of successful set_temporal_field / set_spectral_field / get_temporal_field / get_spectral_field calls on an envelope grid, get_temporal_field returns exactly the last field written with set_temporal_field, or the forward DFT along t of the last field written with set_spectral_field, whichever write came last; get_spectral_field returns the last spectral write, or the inverse DFT of the last temporal write.", "quantifier": "every grid shape, every field, every finite history of setter/getter calls", "why_tests_cant": "the number of call orders and of cache states (neither/one/both valid) is unbounded; a test samples a few orders", "anchors": ["lasy/utils/grid.py: Grid.set_temporal_field, set_spectral_field, get_temporal_field, get_spectral_field, temporal2spectral_fft, spectral2temporal_fft"]}
{"id": "C02", "title": "Temporal and spectral views never disagree", "statement": "In every state reachable through the setters and getters of an envelope grid, what get_spectral_field returns is the inverse DFT along t of what get_temporal_field returns, and what get_temporal_field returns is the DFT of what get_spectral_field returns.", "quantifier": "every shape, every history of setter/getter calls, every field content", "why_tests_cant": "a stale cache shows only under a particular order of writes and reads", "anchors": ["lasy/utils/grid.py: Grid"]}
{"id": "C03", "title": "Getters have no observable effect", "statement": "Inserting or removing any number of get_temporal_field / get_spectral_field calls anywhere in a history does not change the result of any other call.", "quantifier": "every history and every insertion of getter calls", "why_tests_cant": "getters mutate the caches internally; only an argument over all histories shows that this is unobservable", "anchors": ["lasy/utils/grid.py: Grid.get_temporal_field, get_spectral_field"]}
{"id": "C04", "title": "Arrays handed out or handed in are isolated from the grid", "statement": "Writing in place to an array that was returned by a getter, or to an array that was passed to a setter after the setter returned, never changes what the grid returns later, and grid operations never change arrays held by the caller.", "quantifier": "every interleaving of grid calls and in-place writes by the caller to any array it holds", "why_tests_cant": "aliasing bugs only show for specific interleavings of mutation and reads", "anchors": ["lasy/utils/grid.py: Grid.get_temporal_field (.copy()), set_temporal_field ([:,:,:]=)"]}
{"id": "C05", "title": "Rejected calls leave the grid unchanged; an unset grid refuses reads", "statement": "set_temporal_field / set_spectral_field with a wrong shape or dtype raise and leave every later observation unchanged; reading a grid on which nothing was ever set raises ValueError and keeps doing so.", "quantifier": "every grid state, every shape and dtype of the argument", "why_tests_cant": "needs every state and every wrong shape", "anchors": ["lasy/utils/grid.py: Grid.set_temporal_field, set_spectral_field, get_*"]}
{"id": "C06", "title": "Switching a grid between envelope and full-field representation keeps the two views coherent", "statement": "After set_is_envelope(False) and set_is_envelope(True) the temporal and spectral views still describe the same field.", "quantifier": "every history that includes set_is_envelope", "why_tests_cant": "depends on which caches are valid at the moment of the switch", "anchors": ["lasy/utils/grid.py: Grid.set_is_envelope"]}
{"id": "C07", "title": "Temporal/spectral conversion is lossless", "statement": "Writing a spectral field, reading the temporal field, writing that back as temporal field and reading the spectral field returns the original spectral field, and symmetrically, for every number of time points.", "quantifier": "every Nt >= 1, every complex field", "why_tests_cant": "must hold for every length and every field", "anchors": ["lasy/utils/grid.py: temporal2spectral_fft, spectral2temporal_fft"]}
{"id": "C08", "title": "Parseval: the energy can be read off the spectral field", "statement": "sum over t of |temporal|^2 equals Nt times the sum over omega of |spectral|^2, for the pair returned by the two getters.", "quantifier": "every shape and field", "why_tests_cant": "universal identity over all fields", "anchors": ["lasy/utils/grid.py: Grid", "lasy/utils/laser_utils.py: compute_laser_energy"]}
{"id": "C09", "title": "Grid axes are uniform, ascending and hit both ends", "statement": "For every admissible (lo, hi, npoints) each axis of a new grid has npoints entries, starts at lo, ends at hi, has constant step dx=(hi-lo)/(npoints-1), and is strictly increasing when lo<hi; a direction with fewer than two points is rejected.", "quantifier": "every lo, hi and npoints", "why_tests_cant": "all sizes", "anchors": ["lasy/utils/grid.py: Grid.__init__"]}
{"id": "C10", "title": "Azimuthal mode layout agrees with Python negative indexing", "statement": "For every n_azimuthal_modes, the modes are exactly -(n-1)..n-1, each once, and component field[m] (with Python's negative index convention) is the component of mode m; so show(), openPMD output and the propagators address the same mode.", "quantifier": "every number of modes and every mode", "why_tests_cant": "all n", "anchors": ["lasy/utils/grid.py: Grid.__init__ azimuthal_modes, shape", "lasy/laser.py: Laser.__init__, show", "lasy/utils/openpmd_output.py"]}
{"id": "C11", "title": "Cell volumes tile the domain", "statement": "Cell volumes are nonnegative, and summed over the radial cells give the volume of the annulus between r0-dr/2 and rmax+dr/2 times c*dt (cylindrical), with exactly zero weight at r=0; in Cartesian every cell has dx*dy*c*dt.", "quantifier": "every grid", "why_tests_cant": "all sizes", "anchors": ["lasy/utils/laser_utils.py: get_grid_cell_volume"]}
{"id": "C12", "title": "Azimuthal decomposition is exact for band-limited profiles", "statement": "In rt geometry, if at each (r,t) the profile is sum_{|m|<n} c_m(r,t) exp(-i m theta), the constructed (un-normalised) laser stores exactly c_m in the component of mode m, for every admissible n_theta_evals >= 2n-1; too small n_theta_evals is rejected.", "quantifier": "every n, n_theta_evals, profile", "why_tests_cant": "all mode numbers and all profiles", "anchors": ["lasy/laser.py: Laser.__init__"]}
{"id": "C13", "title": "With the default number of angles, the stored modes reproduce the profile at every sampled angle", "statement": "With n_theta_evals = 2n-1, sum_m field_m exp(-i m theta_j) equals the profile evaluated at (r cos theta_j, r sin theta_j, t) for every profile, band-limited or not.", "quantifier": "every n, profile, angle index", "why_tests_cant": "all profiles", "anchors": ["lasy/laser.py: Laser.__init__"]}
{"id": "C14", "title": "A laser built from a profile with laser_energy has that energy", "statement": "For a profile that defines laser_energy >= 0, the constructed laser has compute_laser_energy equal to it unless the sampled envelope carries no energy, in which case the field is left as sampled; profiles without laser_energy are stored unscaled.", "quantifier": "every profile, grid, geometry", "why_tests_cant": "all profiles/grids", "anchors": ["lasy/laser.py: Laser.__init__", "lasy/utils/laser_utils.py: normalize_energy, compute_laser_energy"]}
{"id": "C15", "title": "normalize(kind='energy') sets the energy and only rescales", "statement": "After normalize(E,'energy') on a field with non-zero energy, compute_laser_energy is E, and the new field is the old one times one nonnegative real; zero-energy fields and E=None leave the field unchanged; normalising twice keeps the last value.", "quantifier": "every field, grid and E>=0", "why_tests_cant": "universal over fields", "anchors": ["lasy/laser.py: Laser.normalize", "lasy/utils/laser_utils.py: normalize_energy"]}
{"id": "C16", "title": "normalize(kind='field') sets the peak amplitude and only rescales", "statement": "After normalize(A,'field') on a non-zero field, max|field| is A and the new field is the old one times a real factor; zero fields and A=None leave it unchanged.", "quantifier": "every field and A>=0", "why_tests_cant": "universal over fields", "anchors": ["lasy/utils/laser_utils.py: normalize_peak_field_amplitude"]}
{"id": "C17", "title": "normalize(kind='intensity') sets the peak intensity and only rescales", "statement": "After normalize(I,'intensity') on a non-zero field, the peak of eps0*c/2*|E|^2 is I and the field keeps its shape.", "quantifier": "every field and I>=0", "why_tests_cant": "universal over fields", "anchors": ["lasy/utils/laser_utils.py: normalize_peak_intensity"]}
{"id": "C18", "title": "Unknown normalisation kinds are rejected without effect", "statement": "normalize(v, kind) with kind outside energy/field/intensity raises ValueError and leaves the laser unchanged.", "quantifier": "every string", "why_tests_cant": "all strings", "anchors": ["lasy/laser.py: Laser.normalize"]}
{"id": "C19", "title": "apply_optics multiplies each spectral component by T(x,y,omega)", "statement": "After apply_optics(el), the spectral field at (x,y,omega) is the previous one times el's multiplier at that point (rt: at (r,0,omega) for every mode); hence applying two elements equals applying their product in either order.", "quantifier": "every field, grid, pair of elements", "why_tests_cant": "universal", "anchors": ["lasy/laser.py: Laser.apply_optics"]}
{"id": "C20", "title": "Pure-phase elements conserve energy; an axiparabola never adds energy", "statement": "ParabolicMirror, Axicon, PolynomialSpectralPhase leave compute_laser_energy unchanged for every field; Axiparabola never increases it and removes exactly what lies beyond radius R at every frequency.", "quantifier": "every field, grid and element parameter", "why_tests_cant": "universal over fields and parameters", "anchors": ["lasy/optical_elements/*.py", "lasy/laser.py: apply_optics"]}
{"id": "C21", "title": "Element parameters compose as the physics says", "statement": "Two PolynomialSpectralPhase elements act as one with summed gdd, tod, fod, and the negated element undoes it; two parabolic mirrors act as one with 1/f = 1/f1+1/f2; the order is irrelevant.", "quantifier": "every parameter value and field", "why_tests_cant": "universal", "anchors": ["lasy/optical_elements/polynomial_spectral_phase.py", "lasy/optical_elements/parabolic_mirror.py"]}
{"id": "C22", "title": "Optical element multipliers match their documentation", "statement": "The multipliers are exp(-i omega (x^2+y^2)/(2 c f)), exp(-i omega r tan(gamma/2)) (axicon, as documented) and exp(i(GDD/2 dw^2+TOD/6 dw^3+FOD/24 dw^4)).", "quantifier": "every point and parameter", "why_tests_cant": "universal", "anchors": ["lasy/optical_elements/*.py"]}
{"id": "C23", "title": "A linear spectral phase delays the pulse", "statement": "Multiplying the spectral field by exp(i (omega-omega0) n dt) shifts the temporal envelope by exactly n samples later (circularly), for every integer n.", "quantifier": "every Nt, n, field", "why_tests_cant": "universal", "anchors": ["lasy/laser.py: omega_1d", "lasy/utils/grid.py: Grid"]}
{"id": "C24", "title": "The time window follows the pulse at c, exactly and for every history", "statement": "After any sequence of propagate calls of total distance D, grid.lo[-1], grid.hi[-1] and every entry of the time axis have moved by D/c; the time axis is still the uniform axis from lo to hi, and dx, shape and transverse axes are unchanged.", "quantifier": "every history of propagate/apply_optics/normalize calls", "why_tests_cant": "unbounded histories", "anchors": ["lasy/laser.py: Laser.propagate"]}
{"id": "C25", "title": "Propagations compose", "statement": "propagate(d1) then propagate(d2) gives the same laser as propagate(d1+d2), and propagate(0) changes nothing, whenever the external propagator has these properties.", "quantifier": "every d1,d2, field, propagator with the group law", "why_tests_cant": "universal", "anchors": ["lasy/laser.py: Laser.propagate"]}
{"id": "C26", "title": "A plane wave is stationary in the co-moving window", "statement": "If the external propagator multiplies each frequency by exp(i omega d / c) (plane wave), then after propagate(d) the envelope samples are unchanged up to the global phase exp(i omega0 d/c).", "quantifier": "every field and distance", "why_tests_cant": "universal", "anchors": ["lasy/laser.py: Laser.propagate (translate_time)"]}
{"id": "C27", "title": "Propagation conserves energy whenever the external propagator does", "statement": "If every single-frequency step of the external propagator preserves the cell-weighted norm, compute_laser_energy is unchanged by any sequence of propagate calls without absorbing layer.", "quantifier": "every history, field, norm-preserving propagator", "why_tests_cant": "universal", "anchors": ["lasy/laser.py: Laser.propagate", "lasy/utils/laser_utils.py: compute_laser_energy"]}
{"id": "C28", "title": "The cached propagator always matches the current grid", "statement": "In every history of successful propagate calls, with or without resampling, each step is performed by propagators built for the radial axis, frequencies and azimuthal modes of the grid the laser has at that moment.", "quantifier": "every history mixing plain and resampling propagations", "why_tests_cant": "staleness needs a specific order of calls", "anchors": ["lasy/laser.py: Laser.propagate (self.prop)"]}
{"id": "C29", "title": "The backend argument of propagate is honoured", "statement": "Every propagate(..., backend=b) call uses backend b.", "quantifier": "every history", "why_tests_cant": "depends on caching history", "anchors": ["lasy/laser.py: Laser.propagate (self.prop)"]}
{"id": "C30", "title": "The absorbing layer only attenuates, only at the edge", "statement": "propagate(nr_boundary=k) multiplies the field by factors in [0,1]: 0 in the outermost cell(s), exactly 1 outside the k edge cells; energy never increases.", "quantifier": "every k, shape, field", "why_tests_cant": "universal", "anchors": ["lasy/laser.py: Laser.propagate (absorb_layer)"]}
{"id": "C31", "title": "Resampling leaves a self-consistent grid", "statement": "After propagate(d, grid=g) the laser's grid has g's radial axis, the previous time axis translated by d/c, and a dx[-1] that equals the spacing of its time axis.", "quantifier": "every pair of grids", "why_tests_cant": "depends on how g was created", "anchors": ["lasy/laser.py: Laser.propagate (grid is not None)"]}
{"id": "C32", "title": "A failed propagate leaves the laser usable", "statement": "If propagate raises, the laser still holds the field it had.", "quantifier": "every failure point", "why_tests_cant": "crash points", "anchors": ["lasy/laser.py: Laser.propagate"]}
{"id": "C33", "title": "openPMD cos/sin modes represent the same field", "statement": "For every theta, data[0]+sum_m (data[2m-1] cos m theta + data[2m] sin m theta) written to the file equals sum_m field_m exp(-i m theta).", "quantifier": "every n, field, theta", "why_tests_cant": "universal", "anchors": ["lasy/utils/openpmd_output.py: write_to_openpmd_file"]}
{"id": "C34", "title": "openPMD metadata locate every sample", "statement": "For every stored sample, grid_global_offset + index*grid_spacing along the labelled axes equals the laser's coordinate of that sample, also after propagation; the stored data are the laser's field with axes reversed.", "quantifier": "every grid, history, index", "why_tests_cant": "universal", "anchors": ["lasy/utils/openpmd_output.py"]}
{"id": "C35", "title": "Successive writes get successive, distinct file names", "statement": "The k-th successful write_to_file of a laser writes iteration k-1; two writes never target the same file name; a failing write does not consume an iteration number. The file of iteration k is <write_dir>/<prefix>_<k, padded with zeros to at least five digits>.<format>, whether write_dir ends in a slash or not; an empty write_dir is the working directory.", "quantifier": "every history of writes", "why_tests_cant": "unbounded histories", "anchors": ["lasy/laser.py: Laser.write_to_file", "lasy/utils/openpmd_output.py"]}
{"id": "C36", "title": "Reading back an openPMD array restores the lasy layout", "statement": "reorder_array applied to what write_to_openpmd_file stores (t,y,x) returns the original (x,y,t) array and axes; with z data the longitudinal axis is flipped and t=(z-z0)/c is ascending from 0.", "quantifier": "every array and axes", "why_tests_cant": "universal", "anchors": ["lasy/utils/openpmd_input.py", "lasy/utils/openpmd_output.py"]}
{"id": "C37", "title": "Polarisation is normalised, omega0*lambda0 = 2 pi c", "statement": "For every non-zero pol, |pol_x|^2+|pol_y|^2 = 1, the direction is kept, and re-normalising changes nothing; omega0 = 2 pi c / wavelength.", "quantifier": "every pol and wavelength", "why_tests_cant": "universal", "anchors": ["lasy/profiles/profile.py: Profile.__init__"]}
{"id": "C38", "title": "Profile algebra", "statement": "(p1+p2) evaluates to the pointwise sum, (k*p) and (p*k) to k times the field, for arbitrarily nested sums and products; the same for transverse profiles.", "quantifier": "every nesting", "why_tests_cant": "unbounded expressions", "anchors": ["lasy/profiles/profile.py", "lasy/profiles/transverse/transverse_profile.py"]}
{"id": "C39", "title": "Only profiles with the same wavelength can be added", "statement": "p1+p2 is accepted only if the wavelengths agree to within numerical round-off.", "quantifier": "every pair of wavelengths", "why_tests_cant": "needs the tolerance at the physical scale", "anchors": ["lasy/profiles/profile.py: SummedProfile.__init__"]}
{"id": "C40", "title": "GaussianProfile is the documented Gaussian", "statement": "GaussianProfile(...).evaluate equals exp(-(x^2+y^2)/(w0^2 q)) / q * exp(-(t-t_peak)^2/tau^2 + i(cep+omega0 t_peak)), q = 1 - i z_foc lambda/(pi w0^2), for every argument incl. z_foc=0 (where q=1).", "quantifier": "every parameter and point", "why_tests_cant": "universal", "anchors": ["lasy/profiles/gaussian_profile.py", "lasy/profiles/transverse/gaussian_profile.py", "lasy/profiles/longitudinal/gaussian_profile.py"]}
{"id": "C41", "title": "Defocusing a Gaussian is paraxial propagation", "statement": "The defocused Gaussian solves the paraxial wave equation in z=-z_foc, carries the same power for every z_foc, has peak intensity 1/(1+(z/zR)^2) and width w0 sqrt(1+(z/zR)^2).", "quantifier": "every z_foc, w0, wavelength, point", "why_tests_cant": "universal, analytic", "anchors": ["lasy/profiles/transverse/gaussian_profile.py"]}
{"id": "C42", "title": "Longitudinal profiles peak at t_peak with the stated FWHM and CEP", "statement": "Gaussian, super-Gaussian and cosine profiles have modulus <=1 with equality at t_peak, half intensity at t_peak +- fwhm/2 with the documented relation between tau and fwhm, and the carrier at t_peak has phase cep.", "quantifier": "every parameter", "why_tests_cant": "universal", "anchors": ["lasy/profiles/longitudinal/*.py"]}
{"id": "C43", "title": "The truncated cosine has compact support", "statement": "CosineLongitudinalProfile is exactly zero for |t-t_peak| >= tau_fwhm and non-zero inside, and continuous.", "quantifier": "every t", "why_tests_cant": "universal", "anchors": ["lasy/profiles/longitudinal/cosine_profile.py"]}
{"id": "C44", "title": "set_offset shifts every transverse profile", "statement": "After tp.set_offset(a,b), evaluate(x,y) equals the un-offset profile at (x+a,y+b), also for sums and scaled profiles.", "quantifier": "every profile expression", "why_tests_cant": "unbounded nesting", "anchors": ["lasy/profiles/transverse/transverse_profile.py"]}
{"id": "C45", "title": "Laguerre-Gauss modes of opposite m are mirror images", "statement": "The (p,-m) mode at (x,y) equals the (p,m) mode at (x,-y) for every p, m, z_foc; a rotation by alpha multiplies the mode by exp(-i m alpha).", "quantifier": "every p, m, z_foc, point", "why_tests_cant": "universal", "anchors": ["lasy/profiles/transverse/laguerre_gaussian_profile.py"]}
{"id": "C46", "title": "FromArrayProfile reproduces its data at the grid nodes", "statement": "evaluate at a node of the supplied axes returns exactly the array value there, whatever the phase jumps in the data; outside the axes it returns 0; in rt, between the axis and the first node it returns the first row.", "quantifier": "every array and axes", "why_tests_cant": "universal: phase unwrapping must be invisible", "anchors": ["lasy/profiles/from_array_profile.py"]}
{"id": "C47", "title": "FromArrayProfile honours axes_order", "statement": "With axes_order ['t','y','x'] (resp. ['t','r']) the profile equals the one built from the transposed array with the default order.", "quantifier": "every array", "why_tests_cant": "universal", "anchors": ["lasy/profiles/from_array_profile.py"]}
{"id": "C48", "title": "TransverseProfileFromData normalises and centres", "statement": "The stored intensity sums to 1/(dx dy) for every non-zero image; with center_data the centre of mass is moved to within one pixel of n/2 when the image does not wrap; evaluation outside the window gives 0 and at nodes sqrt(intensity).", "quantifier": "every image", "why_tests_cant": "universal", "anchors": ["lasy/profiles/transverse/transverse_profile_from_data.py"]}
{"id": "C49", "title": "LongitudinalProfileFromData reproduces temporal data", "statement": "With temporal data, evaluate at a kept sample returns sqrt(I) exp(-i phase); the kept samples are those between the samples nearest lo and hi.", "quantifier": "every data set", "why_tests_cant": "universal", "anchors": ["lasy/profiles/longitudinal/longitudinal_profile_from_data.py"]}
{"id": "C50", "title": "Centre of mass and D4sigma behave like moments", "statement": "find_center_of_mass lies inside the image, moves by k when a non-wrapping image moves by k, and both measures are independent of the intensity scale; D4sigma is translation invariant and nonnegative.", "quantifier": "every image", "why_tests_cant": "universal", "anchors": ["lasy/utils/exp_data_utils.py"]}
{"id": "C51", "title": "Zernike OSA/ANSI index conversion is a bijection", "statement": "get_zernike_nm(j) returns (m,n) with n>=0, |m|<=n, n-m even and j=(n(n+2)+m)/2 for every j>=0, and every such pair is hit exactly once.", "quantifier": "every j", "why_tests_cant": "unbounded domain", "anchors": ["lasy/utils/zernike.py: get_zernike_nm"]}
{"id": "C52", "title": "Zernike radial polynomials are normalised at the edge and have definite parity", "statement": "RmnGenerator(n,m,1)=1 for every n>=m>=0 with n-m even, R(-rho)=(-1)^n R(rho), 0 if n-m odd (n>0); every zernike(j) uses the non-zero branch.", "quantifier": "every n, m", "why_tests_cant": "unbounded orders", "anchors": ["lasy/utils/zernike.py: RmnGenerator, zernike"]}
{"id": "C53", "title": "get_frequency is exact for detuned carriers and always within bounds", "statement": "For an envelope A(t) exp(-i d t) with A>0 and |d| dt < pi the local and the central frequency are exactly omega0+d; in general the returned local frequency lies within [lower,upper]*central for a positive central frequency.", "quantifier": "every A, d, grid", "why_tests_cant": "universal", "anchors": ["lasy/utils/laser_utils.py: get_frequency"]}
{"id": "C54", "title": "Field and normalised vector potential convert back and forth", "statement": "vector_potential_to_field(direct=False) undoes field_to_vector_potential whenever no frequency clipping is active.", "quantifier": "every field", "why_tests_cant": "universal", "anchors": ["lasy/utils/laser_utils.py: field_to_vector_potential, vector_potential_to_field"]}
{"id": "C55", "title": "The spectrum integrates to the pulse energy", "statement": "For an envelope whose sampled band is non-negative, sum(spectrum)*d_omega of get_spectrum(method='sum') equals compute_laser_energy; omega is ascending and non-negative.", "quantifier": "every field and grid", "why_tests_cant": "universal", "anchors": ["lasy/utils/laser_utils.py: get_spectrum, compute_laser_energy"]}
{"id": "C56", "title": "RMS duration is invariant under rescaling and propagation of the window", "statement": "get_duration is nonnegative, unchanged by multiplying the field by a non-zero constant and by translating the time axis, and scales with the time unit.", "quantifier": "every field", "why_tests_cant": "universal", "anchors": ["lasy/utils/laser_utils.py: get_duration, weighted_std"]}
{"id": "C57", "title": "get_full_field shows the plane at angle theta", "statement": "In rt, the upper half of the image is the field at angle theta and the lower half the field at angle theta+pi (the same plane).", "quantifier": "every field, theta", "why_tests_cant": "universal", "anchors": ["lasy/utils/laser_utils.py: get_full_field"]}
{"id": "C58", "title": "Central frequency of a full electric field does not depend on its sign", "statement": "field_to_envelope / get_frequency(is_hilbert=True) give the same central frequency for E and -E.", "quantifier": "every real field", "why_tests_cant": "universal", "anchors": ["lasy/utils/laser_utils.py: get_frequency, field_to_envelope"]}
{"id": "C59", "title": "A profile can be built from openPMD full-field data", "statement": "FromOpenPMDProfile on real (non-envelope) data of any admissible shape constructs a profile.", "quantifier": "every admissible data shape", "why_tests_cant": "universal", "anchors": ["lasy/profiles/from_openpmd_profile.py", "lasy/utils/laser_utils.py: create_grid, field_to_envelope"]}
{"id": "C60", "title": "Gerchberg-Saxton leaves its inputs alone and runs the requested iterations", "statement": "gerchberg_saxton_algo never modifies laserPos1/laserPos2; with condition 'max_iterations' it performs exactly max_iterations iterations; it always terminates within max_iterations.", "quantifier": "every input and propagator", "why_tests_cant": "termination cannot be tested", "anchors": ["lasy/utils/phase_retrieval.py"]}
{"id": "C61", "title": "Gerchberg-Saxton reduces the amplitude error", "statement": "For a norm-preserving propagator the squared amplitude error sum(| |field1| - amp1 |^2) never increases from one iteration to the next.", "quantifier": "every iteration, every input", "why_tests_cant": "universal over iterates", "anchors": ["lasy/utils/phase_retrieval.py"]}
{"id": "C62", "title": "Speckle patterns: documented double sum, bounded, static without temporal smoothing", "statement": "The envelope is the double sum over beamlets; its modulus never exceeds the number of beamlets for phase-only smoothing; with RPP/CPP it is the same at all times.", "quantifier": "every draw of the random phases, every point", "why_tests_cant": "universal over random draws", "anchors": ["lasy/profiles/speckle_profile.py"]}
{"id": "C63", "title": "Speckle time series never index out of range", "statement": "For non-negative time axes, GP ISI never indexes outside its series and GP RPM SSD always interpolates series of matching length that cover the queried times.", "quantifier": "every time axis, bandwidth, delay", "why_tests_cant": "boundary arithmetic over all reals", "anchors": ["lasy/profiles/speckle_profile.py"]}
{"id": "C64", "title": "Speckle profiles work in rt geometry", "statement": "In rt geometry the speckle envelope stored by Laser depends on position like the profile itself.", "quantifier": "every grid", "why_tests_cant": "universal", "anchors": ["lasy/profiles/speckle_profile.py", "lasy/laser.py: Laser.__init__"]}
{"id": "C65", "title": "Hermite-Gauss decomposition samples a window containing the profile", "statement": "The sampling window of hermite_gauss_decomposition has spacing exactly res, an even number of points, covers the profile's extent to within res, is centred on the profile also with offsets, and includes all modes up to n_max.", "quantifier": "every profile, res, offset", "why_tests_cant": "universal", "anchors": ["lasy/utils/mode_decomposition.py"]}
{"id": "C66", "title": "show() draws the plane y=0 of a cylindrical laser", "statement": "In rt geometry the image drawn by Laser.show is the envelope in the plane y=0: rows above the axis are the sum over modes of f_m(r)*exp(-i*m*0), rows below the axis (mirrored in r) are the sum of f_m(r)*exp(-i*m*pi).", "quantifier": "every number of modes and every field", "why_tests_cant": "a sign error shows only for odd modes, an index error only for negative ones; the plot is not checked by tests", "anchors": ["lasy/laser.py: Laser.show", "lasy/utils/grid.py: Grid.azimuthal_modes"]}
{"id": "C67", "title": "Resampling keeps each azimuthal mode", "statement": "After propagate(distance, grid=g) the stored component of azimuthal mode m is the propagated and resampled old component of the same mode m, whatever the number of modes of g.", "quantifier": "every laser, every target grid, every number of modes", "why_tests_cant": "depends on the pair (old, new) mode counts; tests use equal counts", "anchors": ["lasy/laser.py: Laser.propagate", "lasy/utils/grid.py: Grid.azimuthal_modes"]}
{"id": "C68", "title": "write_to_file never overwrites existing output", "statement": "A successful write_to_file leaves every file that already exists unchanged; in particular two lasers written with the default arguments do not destroy each other's output.", "quantifier": "all lasers, write arguments and disk contents", "why_tests_cant": "depends on the whole history of files on disk", "anchors": ["lasy/laser.py:Laser.write_to_file", "lasy/utils/openpmd_output.py:write_to_openpmd_file"]}
{"id": "C69", "title": "Reading back a cylindrical file restores the field", "statement": "A laser in rt geometry written with write_to_file and read back with FromOpenPMDProfile(theta=...) gives a profile whose values at the grid points are the laser's field at that angle", "quantifier": "every rt laser, every number of modes, every angle", "why_tests_cant": "universal over arrays and angles", "anchors": ["lasy/utils/openpmd_input.py:reorder_array_rt", "lasy/utils/openpmd_output.py:write_to_openpmd_file", "lasy/profiles/from_openpmd_profile.py"]}
{"id": "C70", "title": "The laser of a sum or multiple of profiles is the sum or multiple of the lasers", "statement": "Building a Laser from p1 + p2 (or s * p) on a given grid gives, at every grid point, the sum (the multiple) of the fields of the lasers built from the parts on the same grid.", "quantifier": "every pair of profiles, scalar, geometry, grid shape and extent", "why_tests_cant": "The claim ranges over all profiles and grids; a test samples one pair on one grid.", "anchors": ["lasy/profiles/profile.py:SummedProfile", "lasy/profiles/profile.py:ScaledProfile", "lasy/laser.py:Laser.__init__"]}
{"id": "C71", "title": "Hermite-Gauss modes are orthonormal at every defocus", "statement": "The integral over the transverse plane of conj(HG_{n,m}) HG_{n',m'} is 1 if (n,m)=(n',m') and 0 otherwise, for every waist, wavelength and z_foc.", "quantifier": "all waists, wavelengths, mode orders and focal positions", "why_tests_cant": "An integral over the whole plane for infinitely many modes and parameters; a test samples a few modes on a finite grid.", "anchors": ["lasy/profiles/transverse/hermite_gaussian_profile.py:HermiteGaussianTransverseProfile._evaluate"]}
{"id": "C72", "title": "Defocusing a Laguerre-Gauss mode is paraxial propagation", "statement": "The Laguerre-Gauss profile with z_foc=-z solves the paraxial wave equation in z, as the documentation's equivalence of z_foc and propagate(-z_foc) requires.", "quantifier": "all radial and azimuthal orders, waists, wavelengths and focal positions", "why_tests_cant": "A differential equation at every point of space, for infinitely many modes; tests compare single planes within a tolerance.", "anchors": ["lasy/profiles/transverse/laguerre_gaussian_profile.py:LaguerreGaussianTransverseProfile._evaluate"]}
{"id": "C73", "title": "A monochromatic envelope shows as one line of the spectrum", "statement": "For an envelope a(x,y) exp(-i delta t) with a resolved detuning delta = 2 pi m/(N dt), get_spectrum(omega0=omega0) is zero at every returned frequency except omega0+delta, and that line carries the whole energy.", "quantifier": "every grid (Cartesian or one azimuthal mode), amplitude a(x,y), m with 2|m|<N, carrier frequency", "why_tests_cant": "A test fixes one grid, one detuning; sign and ordering conventions of the FFT differ by parity of N and by the sign of m.", "anchors": ["lasy/utils/laser_utils.py:get_spectrum", "lasy/utils/laser_utils.py:compute_laser_energy"]}
{"id": "C74", "title": "A laser's frequencies stay those of its time axis through every history", "statement": "After any sequence of successful apply_optics, normalize and propagate calls (with resampling, layers, backends) a constructed laser holds a field, keeps its profile, its time axis has moved by (distance travelled)/c, and the frequencies at which elements and propagators are evaluated are 2 pi fftfreq(N, dt)+omega0 for the present spacing dt of that axis.", "quantifier": "every history of calls, every constructed laser", "why_tests_cant": "Histories are unbounded; a stale frequency array only shows after particular interleavings of resampling and optics.", "anchors": ["lasy/laser.py:Laser.__init__", "lasy/laser.py:Laser.apply_optics", "lasy/laser.py:Laser.propagate", "lasy/laser.py:Laser.normalize"]}
{"id": "C75", "title": "get_full_field cuts the plane asked for by slice", "statement": "For a laser on a Cartesian grid, get_full_field(laser, slice=v, slice_axis=a) with -0.5 <= v <= 0.5 shows the row of the field at the normalised position v of axis a (0 the centre, -0.5 and 0.5 the ends), and the returned extent is the range of the axis that is shown.", "quantifier": "every grid size, every slice position in the documented range, both slice axes", "why_tests_cant": "the row index is a truncated product; tests use one even grid size and the default slice", "anchors": ["lasy/utils/laser_utils.py:get_full_field"]}
{"id": "C76", "title": "get_full_field resamples faithfully in time", "statement": "get_full_field with Nt never fails where Nt=None does not, has Nt columns, the same rows and the same extent; with Nt equal to the laser's number of time points it returns the same image as without Nt.", "quantifier": "every laser with a uniform time axis, every Nt, every field", "why_tests_cant": "interpolation of unwrapped phases at nodes and range checks of the interpolator over all fields and sizes", "anchors": ["lasy/utils/laser_utils.py:get_full_field"]}
{"id": "C77", "title": "Zernike modes are orthonormal on the pupil", "statement": "For all OSA indices j, j' >= 0 and every pupil (centre, radius r > 0), the integral of zernike(j)*zernike(j') over the disc is pi r^2 if j = j' and 0 otherwise.", "quantifier": "every pair of indices, every pupil, integral over the whole disc", "why_tests_cant": "an integral identity over a continuum for infinitely many index pairs", "anchors": ["lasy/utils/zernike.py:zernike", "lasy/utils/zernike.py:RmnGenerator"]}
{"id": "C78", "title": "A centred camera image gives the same profile wherever the beam sits on the camera", "statement": "TransverseProfileFromData with center_data=True gives the same profile for an image and for the same image moved by whole pixels without losing pixels.", "quantifier": "every image, every displacement", "why_tests_cant": "rounding of the centre of mass interacts with every displacement", "anchors": ["lasy/profiles/transverse/transverse_profile_from_data.py:TransverseProfileFromData"]}
{"id": "C79", "title": "Spectral data may be given in increasing or decreasing order", "statement": "LongitudinalProfileFromData with spectral data gives the same profile, or the same error, when axis, intensity and phase are all reversed, for wavelength and for frequency axes.", "quantifier": "every axis, intensity, phase, dt, lo, hi", "why_tests_cant": "all axes and orders", "anchors": ["lasy/profiles/longitudinal/longitudinal_profile_from_data.py:__init__"]}
{"id": "C80", "title": "Spectral data give a pulse of peak one at time zero", "statement": "With spectral data the modulus of evaluate never exceeds 1, and for a spectral phase that is constant the modulus at time zero is 1, the maximum.", "quantifier": "every spectrum, time step, window and time", "why_tests_cant": "all spectra and all numbers of samples; the failing ones are those with an odd number", "anchors": ["lasy/profiles/longitudinal/longitudinal_profile_from_data.py:__init__", "lasy/profiles/longitudinal/longitudinal_profile_from_data.py:evaluate"]}
{"id": "C81", "title": "Spectral data above the mean frequency give a field above the centre frequency", "statement": "With spectral data the profile is a sum of components exp(-2 pi i (f - c/lambda0) t) with the amplitudes and phases of the data, as lasy's envelope convention (field = Re[envelope exp(-i omega0 t)]) requires.", "quantifier": "every spectrum", "why_tests_cant": "the tests use symmetric spectra, for which the orientation does not show", "anchors": ["lasy/profiles/longitudinal/longitudinal_profile_from_data.py:__init__", "lasy/profiles/longitudinal/longitudinal_profile_from_data.py:evaluate"]}
{"id": "C82", "title": "Spectral data against frequency describe the same pulse as against wavelength", "statement": "With axis_is_wavelength=False the axis is a frequency in 1/s (documentation): the profile of a spectrum against frequency f, with density I_f = I_lambda lambda^2/c, is that of the spectrum against lambda = c/f.", "quantifier": "every spectrum", "why_tests_cant": "all spectra", "anchors": ["lasy/profiles/longitudinal/longitudinal_profile_from_data.py:__init__"]}
{"id": "C83", "title": "field_to_envelope represents the same field", "statement": "After field_to_envelope(grid), the grid holds a complex envelope on the same axes, and Re(envelope * exp(-1j*omega*t)) with the returned omega is exactly the original real field at every sample.", "quantifier": "all real fields, grids and time axes with at least three samples", "why_tests_cant": "holds for every field and every number of samples, odd or even", "anchors": ["lasy/utils/laser_utils.py: field_to_envelope, hilbert_transform"]}
{"id": "C84", "title": "field_to_envelope is exact for fields without zero or Nyquist frequency", "statement": "If the real field is the real part of a signal whose discrete frequencies all lie strictly between zero and Nyquist (lasy sign convention), field_to_envelope recovers that signal exactly, so the modulus of the envelope is exact.", "quantifier": "all spectra supported on positive frequencies, all grid sizes", "why_tests_cant": "ranges over all spectra and lengths", "anchors": ["lasy/utils/laser_utils.py: field_to_envelope, hilbert_transform"]}
{"id": "C85", "title": "create_grid checks that the axes of the data are those of the grid", "statement": "create_grid returns a Grid that holds exactly the given array on exactly the given axes, and raises for axes that are not uniformly spaced.", "quantifier": "all arrays and axes", "why_tests_cant": "ranges over all axes, including irregular ones at femtosecond scale", "anchors": ["lasy/utils/laser_utils.py: create_grid"]}
{"id": "C86", "title": "The carrier frequency of a real pulse is recovered", "statement": "field_to_envelope / get_frequency return the carrier frequency of a pulse A(t) cos(omega t) with a slow amplitude A.", "quantifier": "all pulse shapes and carrier frequencies", "why_tests_cant": "ranges over all pulses", "anchors": ["lasy/utils/laser_utils.py: get_frequency, field_to_envelope"]}
{"id": "C87", "title": "get_frequency computes the Hilbert transform of a full field itself", "statement": "For a grid that holds a full electric field, get_frequency(grid, dim) with is_hilbert=False returns the local and central frequency.", "quantifier": "all full-field grids and arguments", "why_tests_cant": "no bound on grids", "anchors": ["lasy/utils/laser_utils.py: get_frequency, hilbert_transform"]}
{"id": "C88", "title": "Gaussian time series have the requested root mean square", "statement": "gen_gaussian_time_series(t_num, dt, fwhm, rms_mean) returns t_num samples whose root mean square is exactly rms_mean (in modulus) for every non-zero width, and zeros for a zero width.", "quantifier": "all t_num, dt, widths, rms values and random draws (not all zero)", "why_tests_cant": "must hold for every draw of the generator and every length", "anchors": ["lasy/profiles/speckle_profile.py: gen_gaussian_time_series"]}
{"id": "C89", "title": "Speckle smoothing works on every time axis", "statement": "For GP ISI and GP RPM SSD, evaluate works for time axes that include negative times, and the pattern at negative times is part of the same random process (neither a copy of later times, nor frozen).", "quantifier": "all time axes, bandwidths, draws", "why_tests_cant": "boundary arithmetic over all time axes", "anchors": ["lasy/profiles/speckle_profile.py: SpeckleProfile.evaluate, beamlets_complex_amplitude"]}
{"id": "C90", "title": "SSD arguments are checked", "statement": "A missing or unusable SSD argument is rejected with the documented AssertionError; an accepted set of arguments gives a finite field.", "quantifier": "all arguments of the constructor, all draws", "why_tests_cant": "ranges over all arguments", "anchors": ["lasy/profiles/speckle_profile.py: SpeckleProfile.__init__"]}
{"id": "C91", "title": "Phases of continuous phase plates lie in the documented interval", "statement": "With CPP (and SSD) the phase of every beamlet is drawn from [0, pi], as documented.", "quantifier": "all draws", "why_tests_cant": "random draws", "anchors": ["lasy/profiles/speckle_profile.py: SpeckleProfile.evaluate"]}
{"id": "C92", "title": "FM SSD stays inside the relative bandwidth", "statement": "Under FM SSD the instantaneous frequency of every beamlet stays within half the relative bandwidth of the central frequency if one direction is modulated, and within sqrt(2) times that in general.", "quantifier": "all beamlets, times, amplitudes, distributions, colour cycles, offsets", "why_tests_cant": "continuous in time", "anchors": ["lasy/profiles/speckle_profile.py: SpeckleProfile.__init__, beamlets_complex_amplitude"]}
{"id": "C93", "title": "Waist of the Hermite-Gauss decomposition maximises the fundamental weight", "statement": "The waist returned by hermite_gauss_decomposition is one of 30 scanned around the D4sigma estimate and gives the largest weight of order 0 among them; the weights are the overlap sums with the modes of this waist; a field whose D4sigma estimate is already the right waist gets this waist.", "quantifier": "every profile, resolution, number of modes", "why_tests_cant": "universal over fields", "anchors": ["lasy/utils/mode_decomposition.py: hermite_gauss_decomposition, estimate_best_HG_waist"]}
{"id": "C94", "title": "Weights of the decomposition determine the complex profile", "statement": "Two profiles with different complex fields (for example the same beam before and after its focus, or a field and its multiple by i) get different decompositions.", "quantifier": "every pair of profiles", "why_tests_cant": "universal over fields", "anchors": ["lasy/utils/mode_decomposition.py: hermite_gauss_decomposition"]}
{"id": "C95", "title": "Parity of the decomposition", "statement": "A profile even (odd) in x or y, on a symmetric window, has exactly zero weight for all modes of odd (even) order in this direction, for every resolution.", "quantifier": "every symmetric profile, resolution, order", "why_tests_cant": "universal over fields and orders", "anchors": ["lasy/utils/mode_decomposition.py: hermite_gauss_decomposition", "lasy/profiles/transverse/hermite_gaussian_profile.py"]}
{"id": "C96", "title": "Homogeneity of the decomposition", "statement": "Multiplying the profile by a real constant multiplies all weights by it and leaves the waist unchanged.", "quantifier": "every profile, constant, resolution", "why_tests_cant": "universal over fields", "anchors": ["lasy/utils/mode_decomposition.py: hermite_gauss_decomposition, estimate_best_HG_waist"]}
{"id": "C97", "title": "vector_potential_to_field(direct=True) differentiates the vector potential", "statement": "vector_potential_to_field(grid, omega0) (direct=True) on an envelope a of the normalised vector potential returns the envelope E with E exp(-i omega0 t) = -(m_e c / e) d/dt(a exp(-i omega0 t)), with an error of second order in the time step at every sample including both ends, exactly for quadratic envelopes; it is refused for full fields and for fewer than three times; the grid is not changed.", "quantifier": "every smooth envelope with bounded third derivative, every equidistant time axis with three points or more, every omega0", "why_tests_cant": "an error bound over all functions and all step sizes", "anchors": ["lasy/utils/laser_utils.py:vector_potential_to_field"]}
{"id": "C98", "title": "get_full_field labels rows and columns in rt", "statement": "In rt geometry the extent returned by get_full_field gives each column its time and each row its signed distance from the axis: row nr-1+j is at r_j and row nr-1-j at -r_j.", "quantifier": "every field, every uniform rt grid, every angle", "why_tests_cant": "the extent is built from lo and hi, independently of the rows; tests look at the array only", "anchors": ["lasy/utils/laser_utils.py:get_full_field"]}
{"id": "C99", "title": "Rays leave the optical elements towards their documented foci", "statement": "In geometrical optics: all rays leaving a ParabolicMirror cross the axis at f; rays leaving an Axicon make the angle gamma with the axis; rays leaving an Axiparabola at the centre focus at f0 and at the rim R at f0+delta, and nothing leaves it beyond R.", "quantifier": "every radius, direction, frequency and every positive f, gamma, f0, delta, R", "why_tests_cant": "it is a statement about the derivative of the phase at every radius", "anchors": ["lasy/optical_elements/parabolic_mirror.py:ParabolicMirror", "lasy/optical_elements/axicon.py:Axicon", "lasy/optical_elements/axiparabola.py:Axiparabola"]}
{"id": "C100", "title": "Super-Gaussian and jinc transverse profiles", "statement": "SuperGaussianTransverseProfile is exp(-(r/w0)^n): 1 on the axis, 1/e at r=w0 for every order, decreasing with r, the Gaussian profile for n=2; JincTransverseProfile is 2 J1(r/w0)/(r/w0) for r>0, 1 on the axis, without a jump there.", "quantifier": "every point, every positive waist and order", "why_tests_cant": "universal over points and parameters; limit at the axis", "anchors": ["lasy/profiles/transverse/super_gaussian_profile.py:SuperGaussianTransverseProfile", "lasy/profiles/transverse/jinc_profile.py:JincTransverseProfile"]}
{"id": "C101", "title": "Laser.show draws the envelope of the plane y=0", "statement": "In rt, the image of Laser.show contains |E| in the plane y=0: at r_j on the side of angle 0 in row nr+j, on the side of angle pi in row nr-1-j, drawn at +-r_j up to half a pixel if the radial axis starts at 0; on Cartesian grids row i is |E| at x_i in the plane of the y sample nearest to the middle of the y axis (at most half a cell away), drawn at x_i up to half a pixel. Drawing does not change the laser.", "quantifier": "every field, number of modes and grid", "why_tests_cant": "the sign of each mode and negative mode indices over all numbers of modes", "anchors": ["lasy/laser.py:Laser.show"]}
{"id": "C102", "title": "Spectra of an envelope and of its real field agree", "statement": "get_spectrum(method='sum' or 'on_axis') of a grid holding an envelope and of a grid holding the real field Re(envelope exp(-i omega0 t)) return the same values at every frequency both return, and they have all frequencies in common which lie in both windows.", "quantifier": "every field whose content lies strictly between zero frequency and Nyquist, every carrier that is a resolved frequency, every geometry, grid size and number of modes", "why_tests_cant": "an identity between two FFT branches over all fields and window positions", "anchors": ["lasy/utils/laser_utils.py:get_spectrum"]}
{"id": "C103", "title": "The raw spectrum is the documented Fourier integral", "statement": "get_spectrum(method='raw') returns the Fourier transform int E(t) exp(-i omega t) dt of the field at every transverse point and every returned frequency.", "quantifier": "every field, real or envelope, every time window", "why_tests_cant": "universal over fields; conjugation and phase errors do not show in the moduli which tests look at", "anchors": ["lasy/utils/laser_utils.py:get_spectrum"]}
{"id": "C104", "title": "The on-axis spectrum is the documented density on the axis", "statement": "get_spectrum(method='on_axis') returns eps0 c/(2 pi) |E(omega)|^2 of the field on the axis.", "quantifier": "every field and every symmetric grid, even or odd", "why_tests_cant": "universal over fields and grid sizes; whether a sample on the axis exists depends on the parity", "anchors": ["lasy/utils/laser_utils.py:get_spectrum"]}
{"id": "C105", "title": "A frequency range of get_spectrum interpolates the spectrum", "statement": "get_spectrum(range=[lo,hi], bins=n) returns n equally spaced frequencies from lo to hi; at each the value is on the polygon through the spectrum returned without range, constant beyond its ends; with nothing to interpolate from it raises ValueError. Frequencies are returned in ascending order.", "quantifier": "every spectrum, range and number of bins, both scalar methods, envelopes and full fields", "why_tests_cant": "universal over spectra and ranges", "anchors": ["lasy/utils/laser_utils.py:get_spectrum"]}
{"id": "C106", "title": "The spectrum of a full field integrates to its energy", "statement": "The integral over frequency of get_spectrum(method='sum') of a real field is compute_laser_energy of that grid.", "quantifier": "every real field without content at zero frequency or at and beyond Nyquist, every number of time samples", "why_tests_cant": "Parseval's identity over all fields and parities", "anchors": ["lasy/utils/laser_utils.py:get_spectrum", "lasy/utils/laser_utils.py:compute_laser_energy"]}
{"id": "C107", "title": "A profile made from an INSIGHT measurement describes the measured field", "statement": "Whenever FromInsightFile succeeds, the carrier frequency is positive, and at every node of the measurement (mm and fs converted to SI) Re(envelope exp(-i omega0 t)) is the real part of the data and |envelope| = |data|; outside the measured volume the envelope is zero. It succeeds for every non-zero float omega0; anything else than a float or the two names is an AssertionError.", "quantifier": "every data array, ascending axes, every setting of omega0, both sign conventions of the data", "why_tests_cant": "universal over data; the conjugation branch depends on the data", "anchors": ["lasy/profiles/from_insight_file.py:FromInsightFile"]}
{"id": "C108", "title": "The carrier of an INSIGHT measurement is found", "statement": "If the data are A(x,y,t) exp(-i omega t) with positive modulus and constant phase of A on the axis and the carrier turns by less than pi between samples, omega0='peak' and 'barycenter' both give |omega|, and the envelope at the nodes is A (its conjugate if omega < 0).", "quantifier": "every amplitude off the axis, every positive amplitude on the axis, every resolved carrier of either sign, uniform or non-uniform time axes", "why_tests_cant": "universal over amplitudes and carriers; phase unwrapping", "anchors": ["lasy/profiles/from_insight_file.py:FromInsightFile"]}
{"id": "C109", "title": "omega0='peak' is the maximum of the on-axis spectrum", "statement": "FromInsightFile(omega0='peak') uses the frequency at which the on-axis spectrum is greatest, as documented.", "quantifier": "every measurement", "why_tests_cant": "universal over measurements", "anchors": ["lasy/profiles/from_insight_file.py:FromInsightFile"]}
{"id": "C110", "title": "Lasers do not disturb each other", "statement": "For lasers constructed separately and any interleaving of propagate (with or without grid=), normalize and apply_optics calls on them, in which no Grid object is passed to propagate of one laser while it is the grid of another, the time window, time axis and field of each laser are those its own calls alone would have produced; bounds and axis have moved by exactly its own travelled distance over c.", "quantifier": "every number of lasers, every history of successful calls in any order, every physics of the propagation step", "why_tests_cant": "aliasing of arrays and objects shows only in particular interleavings", "anchors": ["lasy/laser.py:Laser.propagate", "lasy/utils/grid.py:Grid.__init__"]}
{"id": "C111", "title": "A grid taken from a laser stays as it is when the laser moves on to another grid", "statement": "After laser.propagate(d, grid=g), the Grid object that was laser.grid before is not changed by this and later calls.", "quantifier": "every history", "why_tests_cant": "in-place change of a shared array", "anchors": ["lasy/laser.py:Laser.propagate"]}
{"id": "C112", "title": "Exporting to z and importing back restores the field", "statement": "For a field that does not diffract over the window (a transverse profile times any pulse), import_from_z(export_to_z(grid)) with the default axis z = c t into an envelope grid with the same axes restores the temporal field in every sample, whatever the grid held before; the exported grid keeps its field.", "quantifier": "every such field, transverse grid, uniform time axis, omega0, backend, both geometries", "why_tests_cant": "must hold for every field; the repository's own test compares the exported field with itself", "anchors": ["lasy/utils/laser_utils.py:export_to_z", "lasy/utils/laser_utils.py:import_from_z"]}
{"id": "C113", "title": "The exported field is the snapshot of the travelling pulse", "statement": "For a field that does not diffract over the window, export_to_z returns at position z what passes z=0 at time -z/c: on every z axis for pulses made of the frequencies of the time axis, and sample by sample for every pulse; on a window centred on 0 with the default axis it is the time-reversed field. Reading does not change the grid.", "quantifier": "every such field, z axis, time axis, omega0, both geometries", "why_tests_cant": "universal over fields and axes", "anchors": ["lasy/utils/laser_utils.py:export_to_z"]}
{"id": "C114", "title": "The imported field is the record of the travelling snapshot", "statement": "import_from_z sets the temporal field at time t to the snapshot at z=-ct, on every time axis, for snapshots that do not diffract and are made of the wavenumbers of the z axis; exporting again with the matching axis returns the snapshot.", "quantifier": "every such snapshot, z axis, time axis, omega0, both geometries", "why_tests_cant": "universal over fields and axes", "anchors": ["lasy/utils/laser_utils.py:export_to_z", "lasy/utils/laser_utils.py:import_from_z"]}
{"id": "C115", "title": "Export to z conserves the energy", "statement": "With the default z axis the sum of the squared moduli over z in each transverse cell equals that over t, for fields that do not diffract over the window.", "quantifier": "every such field and uniform time axis", "why_tests_cant": "universal over fields", "anchors": ["lasy/utils/laser_utils.py:export_to_z"]}
{"id": "C116", "title": "Conversion between t and z is refused for full fields", "statement": "export_to_z and import_from_z, documented for envelopes, raise an exception on a grid that holds a full field and leave it as it is.", "quantifier": "every full-field grid and all arguments", "why_tests_cant": "universal over inputs", "anchors": ["lasy/utils/laser_utils.py:export_to_z", "lasy/utils/laser_utils.py:import_from_z"]}
{"id": "C117", "title": "A parabolic mirror obeys the lens formula", "statement": "Applied at the centre frequency to the transverse profile of a Gaussian, Hermite-Gauss or Laguerre-Gauss beam, ParabolicMirror(f) gives, up to a constant factor, the profile of the same kind with the waist and focal plane of the lens formula 1/b' = 1/b + 1/f for the complex beam parameter; for a collimated beam the focus is downstream, at f/(1+(f/z_R)^2).", "quantifier": "every waist, wavelength, focal plane, focal length other than zero and every mode order", "why_tests_cant": "universal over real parameters and orders", "anchors": ["lasy/optical_elements/parabolic_mirror.py:ParabolicMirror", "lasy/profiles/transverse/gaussian_profile.py", "lasy/profiles/transverse/hermite_gaussian_profile.py", "lasy/profiles/transverse/laguerre_gaussian_profile.py"]}
{"id": "C118", "title": "Group delay dispersion stretches a Gaussian pulse as in the textbook", "statement": "Behind PolynomialSpectralPhase(gdd), the Gaussian longitudinal profile of duration tau is Gaussian of duration tau*sqrt(1+(2 gdd/tau^2)^2), centred at the same time, with the same energy and a linear chirp whose sign is that of gdd.", "quantifier": "every duration, peak time, phase, wavelength and gdd", "why_tests_cant": "universal over real parameters", "anchors": ["lasy/optical_elements/polynomial_spectral_phase.py:PolynomialSpectralPhase", "lasy/profiles/longitudinal/gaussian_profile.py"]}
{"id": "C119", "title": "A spectral phase keeps the energy and delays each frequency by its group delay", "statement": "PolynomialSpectralPhase keeps the fluence of every pulse and changes its mean arrival time by the mean over the spectrum of gdd (w-w0) + tod (w-w0)^2/2 + fod (w-w0)^3/6: for gdd > 0 higher frequencies arrive later.", "quantifier": "every smooth spectrum of bounded support and all real gdd, tod, fod", "why_tests_cant": "universal over spectra", "anchors": ["lasy/optical_elements/polynomial_spectral_phase.py:PolynomialSpectralPhase"]}
{"id": "C120", "title": "Laguerre-Gauss modes are orthogonal and their energy does not depend on the focal plane", "statement": "Two Laguerre-Gauss transverse profiles with the same waist and focal plane and different orders are orthogonal in the transverse plane, and the energy of one profile does not change when its focal plane is moved.", "quantifier": "every waist, wavelength, focal plane and pair of orders", "why_tests_cant": "integrals over the plane for every order", "anchors": ["lasy/profiles/transverse/laguerre_gaussian_profile.py:LaguerreGaussianProfile"]}
{"id": "C121", "title": "The search for the best Hermite-Gauss waist refuses pixels that are not square", "statement": "estimate_best_HG_waist raises an error when the pixels of the profile are not square.", "quantifier": "every profile from data", "why_tests_cant": "universal over pixel sizes", "anchors": ["lasy/utils/mode_decomposition.py:estimate_best_HG_waist"]}
{"id": "C122", "title": "The energy of a new cylindrical laser is the energy of the profile, averaged over the angles", "statement": "A new rt laser has the energy of the profile's field at the sampled angles, averaged over the angles, when as many angles are sampled as there are modes; it has at most this energy when more angles are sampled; and it has the energy integrated over all angles when the profile has no azimuthal content beyond the modes of the grid.", "quantifier": "every grid, profile, number of modes and number of sampled angles", "why_tests_cant": "an identity over all profiles and all mode counts", "anchors": ["lasy/laser.py:Laser.__init__", "lasy/utils/laser_utils.py:compute_laser_energy"]}
{"id": "C123", "title": "Rotating the profile multiplies the azimuthal modes by a phase and keeps the energy", "statement": "If one profile is another one rotated by an angle, the rt lasers made from the two have fields whose mode m differs by the factor exp(i m angle) and have the same energy, for rotations by a multiple of the angular step and, for profiles within the modes of the grid, by any angle.", "quantifier": "every profile, rotation, grid and number of modes", "why_tests_cant": "relation between two runs for all profiles", "anchors": ["lasy/laser.py:Laser.__init__"]}
{"id": "C124", "title": "Symmetries of the profile show in the azimuthal modes", "statement": "A profile symmetric in y gives equal modes m and -m; a real profile gives conjugate modes m and -m; an axisymmetric profile gives only mode 0, which is the profile itself.", "quantifier": "every profile with the symmetry, grid, number of modes and of angles", "why_tests_cant": "universal over profiles and mode counts", "anchors": ["lasy/laser.py:Laser.__init__"]}
{"id": "C125", "title": "The central frequency is the average of the local frequency over the pulse", "statement": "The central frequency returned by get_frequency is the average of the local frequency over space and time, every cell weighted with the amplitude and its volume, in both geometries, for envelopes and for real fields.", "quantifier": "every field, grid and carrier frequency", "why_tests_cant": "an equality for all fields", "anchors": ["lasy/utils/laser_utils.py:get_frequency"]}
{"id": "C126", "title": "On fine grids the energy is the energy of the profile", "statement": "The energy of a new laser converges to the integral of the energy density epsilon_0/2 |E|^2 over the box (xyt) or the cylinder (rt) when the numbers of points and of azimuthal modes grow, for every continuous profile with any azimuthal dependence; if the field vanishes outside of a cylinder the energies in the two geometries agree in the limit.", "quantifier": "every continuous profile, box, epsilon; all grids finer than some N", "why_tests_cant": "a limit over all grids and profiles", "anchors": ["lasy/laser.py:Laser.__init__", "lasy/utils/laser_utils.py:compute_laser_energy", "lasy/utils/grid.py:Grid"]}
{"id": "C127", "title": "On fine grids the duration is the RMS duration of the profile", "statement": "The duration returned by get_duration for a new laser converges to the root mean square duration of the intensity of the profile over the box or cylinder when the numbers of points and of azimuthal modes grow, for every continuous profile that is not zero.", "quantifier": "every continuous non-zero profile, box, epsilon; all grids finer than some N", "why_tests_cant": "a limit over all grids and profiles", "anchors": ["lasy/laser.py:Laser.__init__", "lasy/utils/laser_utils.py:get_duration"]}
{"id": "C128", "title": "Superposition: a beam line acts linearly on the field", "statement": "For lasers set up on the same grid with the same carrier frequency, whose fields are f, g and a*f + b*g, every sequence of apply_optics and propagate calls (any distances, absorbing layers, resampling grids and backends) turns them into lasers holding f', g' and a*f' + b*g' on the same axes, and runs for all of them if it runs for one, provided the external propagator itself is linear.", "quantifier": "all grids, profiles, coefficients, histories of optics and propagations", "why_tests_cant": "Linearity is a statement about all pairs of fields and all histories; tests compare a few fields after one call.", "anchors": ["lasy/laser.py:Laser.apply_optics", "lasy/laser.py:Laser.propagate", "lasy/laser.py:Laser._Laser__apply_absorbing_boundary"]}
{"id": "C129", "title": "Running a beam line backwards restores the laser", "statement": "A sequence of propagations (no absorbing layer, no resampling) and optical elements with invertible multipliers, followed in reverse order by the inverse elements and the reversed distances, leaves the laser with its original field, axes, profile and output counter, whatever backends are named, provided the steps of the external propagator compose.", "quantifier": "all lasers, all lengths and orders of beam lines, all distances and invertible elements", "why_tests_cant": "Exact inversion over arbitrarily long sequences cannot be sampled; the cached propagator and the shifting time axis are state shared by all steps.", "anchors": ["lasy/laser.py:Laser.apply_optics", "lasy/laser.py:Laser.propagate"]}
{"id": "C130", "title": "Moving everything together changes nothing", "statement": "If window, profile and optical elements are displaced by the same vector (xyt) and delay (xyt and rt), up to a constant phase factor of the profile, then after every history of apply_optics, normalize and propagate the field has the same samples up to that phase factor, on axes displaced by the same amounts, and the same energy. In particular, adding tau to t_peak of a Gaussian pulse and to its window gives the same pulse, later, with its carrier: the envelope is multiplied by exp(i omega0 tau).", "quantifier": "all grids, displacements, delays, profiles, histories, linear external propagators", "why_tests_cant": "Covariance holds between pairs of whole runs; tests look at single windows.", "anchors": ["lasy/laser.py:Laser", "lasy/profiles/longitudinal/gaussian_profile.py", "lasy/profiles/longitudinal/cosine_profile.py", "lasy/profiles/longitudinal/super_gaussian_profile.py"]}
{"id": "C131", "title": "Field of a laser of given energy on fine grids", "statement": "For every continuous profile that defines laser_energy = E and has a non-zero energy of its own in the simulation window, the stored field converges, at all grid points at once, to the profile times sqrt(E / energy of the profile in the window) when the grid is refined; in rt geometry the same holds for each azimuthal mode and, for round profiles, with any number of modes: refining the grid does not change the result.", "quantifier": "all windows, continuous profiles, energies, error bounds, and all grids fine enough", "why_tests_cant": "a convergence statement over all fine grids and all continuous profiles", "anchors": ["lasy/laser.py:Laser.__init__", "lasy/laser.py:Laser.normalize", "lasy/utils/laser_utils.py:normalize_energy"]}
{"id": "C132", "title": "Azimuthal modes converge to the Fourier coefficients", "statement": "For every continuous profile, each azimuthal mode m of a new rt laser converges, uniformly over all grid points, numbers of modes and of grid points, to 1/2pi times the integral of profile(r cos theta, r sin theta, t) e^{i m theta} when the number of sampled angles n_theta_evals grows.", "quantifier": "all continuous profiles, modes, windows, numbers of points and modes, and all large numbers of angles", "why_tests_cant": "a convergence statement over all continuous profiles", "anchors": ["lasy/laser.py:Laser.__init__"]}
{"id": "C133", "title": "Peak field of a Gaussian pulse of given energy", "statement": "A Laser made from GaussianProfile(lambda, pol, E, w0, tau, t_peak, cep, z_foc) has the textbook peak intensity: in large boxes and on fine grids the modulus of the field is A (w0/w) exp(-r^2/w^2) exp(-(t-t_peak)^2/tau^2) with eps0 c A^2/2 = E / (pi w0^2/2 * tau sqrt(pi/2)) and w = w0 sqrt(1+(z_foc/zR)^2), in both geometries and for any number of modes.", "quantifier": "all parameters of the profile, all large boxes, all fine grids, all numbers of modes", "why_tests_cant": "a double limit over boxes and grids for all parameters", "anchors": ["lasy/laser.py:Laser.__init__", "lasy/profiles/gaussian_profile.py:GaussianProfile"]}
{"id": "C134", "title": "Duration of the built-in pulses", "statement": "For every combined (transverse times longitudinal) profile the duration reported for a new laser depends on nothing but the samples of the longitudinal profile: not on the transverse profile, the transverse grid, the geometry, the number of azimuthal modes, the polarisation or the energy. In windows that are large enough and with enough points in time it is, up to any given error, tau/2 for a Gaussian of duration tau, tau 2^(-1/n) sqrt(Gamma(3/n)/Gamma(1/n)) for a super-Gaussian of order n, and tau_fwhm sqrt(1/3 - 2/pi^2) for a truncated cosine.", "quantifier": "all transverse profiles, geometries, grids, mode counts, polarisations and non-zero energies; all wavelengths, durations, peak times, phases and orders; all sufficiently large windows and numbers of points", "why_tests_cant": "a test compares one laser on one grid with a tolerance; it cannot show independence from the transverse profile or convergence", "anchors": ["lasy/utils/laser_utils.py:get_duration", "lasy/profiles/combined_profile.py:CombinedLongitudinalTransverseProfile", "lasy/profiles/longitudinal/gaussian_profile.py", "lasy/profiles/longitudinal/super_gaussian_profile.py", "lasy/profiles/longitudinal/cosine_profile.py", "lasy/laser.py:Laser.__init__"]}
{"id": "C135", "title": "The power of a speckle pattern does not depend on what was drawn", "statement": "Without the transverse envelope, a speckle pattern (RPP, CPP, FM SSD, GP RPM SSD) has the same total power whatever random numbers were drawn and at every time: the intensity summed over N_bx x N_by points a distance lambda0 f/D apart, wherever the points start, is (N_bx N_by)^2, so the mean intensity over one period is the number of beamlets; and the intensity is periodic with the documented beam widths lambda0 f N/D.", "quantifier": "every SpeckleProfile without ISI and without envelope, every draw, every starting point, every time", "why_tests_cant": "the draws and the times are unbounded; a test sees single draws", "anchors": ["lasy/profiles/speckle_profile.py: SpeckleProfile.evaluate", "lasy/profiles/speckle_profile.py: SpeckleProfile.generate_speckle_pattern"]}
{"id": "C136", "title": "Statistics of speckle patterns over the random phase plates", "statement": "Over the random phase plates (each element drawn independently; 0 or pi with equal probability for RPP, uniformly for CPP and both SSD), at every point and time the mean field is zero, the mean intensity is the number of beamlets times the squared sinc envelope, fields at points q lambda0 f/D apart (q not a multiple of the number of beamlets) are uncorrelated, and for continuous plates the variance of the intensity is (1 - 1/N) times the squared mean.", "quantifier": "every probability space carrying such draws, every SpeckleProfile without ISI, every mesh and time", "why_tests_cant": "a statement about the whole distribution of draws; sampling only estimates it", "anchors": ["lasy/profiles/speckle_profile.py: SpeckleProfile.evaluate", "lasy/profiles/speckle_profile.py: SpeckleProfile.beamlets_complex_amplitude"]}
{"id": "C137", "title": "The phase retrieval keeps exact solutions", "statement": "Given two lasers of the same frequencies on the same transverse grid: once an iteration of gerchberg_saxton_algo reproduces the first laser's amplitudes exactly, every larger max_iterations returns the same phases (that of the second plane wherever its amplitude is non-zero) with zero error, and the given amplitudes with the returned phases are one beam: the field of the first plane propagates into that of the second. If the second laser's amplitude is that of the flat-phase first beam propagated by dz, the first iteration already finds it: phase 0 in the first plane, the phase of the propagated beam in the second, error zero, with max_iterations as well as with amplitude_error.", "quantifier": "all pairs of lasers on one grid, all propagators whose steps compose, all dz, iteration counts and tolerances", "why_tests_cant": "unboundedly many iterations and all beams and grids", "anchors": ["lasy/utils/phase_retrieval.py: gerchberg_saxton_algo"]}
{"id": "C138", "title": "The families of profiles agree where they should", "statement": "At every defocus the Laguerre-Gauss mode p = m = 0 is the Gaussian profile, and the Hermite-Gauss mode n_x = n_y = 0 is the Gaussian profile times sqrt(2/pi)/w0. The super-Gaussian profiles of order 2 are the Gaussian ones, in space (at focus) and in time. Every Laguerre-Gauss mode (p, m) is at every defocus a combination of the Hermite-Gauss modes of the same waist with n_x + n_y = 2p + |m|, with coefficients that do not depend on the defocus up to the common factor |q|^|m| exp(i(|m| - m) psi) by which the implemented modes differ from paraxial ones.", "quantifier": "all waists, mode indices, defocus and points", "why_tests_cant": "infinitely many modes; a test compares chosen modes on chosen grids", "anchors": ["lasy/profiles/transverse/laguerre_gaussian_profile.py: LaguerreGaussianTransverseProfile._evaluate", "lasy/profiles/transverse/hermite_gaussian_profile.py: HermiteGaussianTransverseProfile._evaluate", "lasy/profiles/transverse/gaussian_profile.py", "lasy/profiles/transverse/super_gaussian_profile.py", "lasy/profiles/longitudinal/super_gaussian_profile.py"]}
{"id": "C139", "title": "Restarting from a file continues the simulation", "statement": "A laser (Cartesian, or cylindrical with one azimuthal mode) that went through any history of optical elements, normalisations and propagations with one backend is written with write_to_file; FromOpenPMDProfile reads the file; a new Laser is built from that profile on the window the old one occupies now (the original one delayed by the distance travelled over c) with the same numbers of points. All these steps succeed, the new laser has the same field, axes and frequencies, and every continuation (also with resampling) either raises the same exception for both lasers or ends with the same field on the same axes.", "quantifier": "all profiles, windows, grid sizes, histories before and after the checkpoint, polarisations, reading angles, numbers of sampled angles", "why_tests_cant": "the number of histories before and after the checkpoint is unbounded; a test can only try a few", "anchors": ["lasy/laser.py: Laser.write_to_file", "lasy/utils/openpmd_output.py: write_to_openpmd_file", "lasy/profiles/from_openpmd_profile.py: FromOpenPMDProfile", "lasy/profiles/from_array_profile.py: FromArrayProfile", "lasy/laser.py: Laser.__init__"]}
{"id": "C140", "title": "FromArrayProfile refuses malformed data, and says how", "statement": "FromArrayProfile raises AssertionError for an unknown dim or an axes order that does not belong to it, KeyError if an axis of the geometry is missing from the dictionary, ValueError if an axis has not the length of the data or is neither strictly ascending nor strictly descending or if the array has too few dimensions; data with ascending or descending axes are accepted and reproduced at the nodes (C46).", "quantifier": "all arrays, axes dictionaries, dims and orders", "why_tests_cant": "the malformed inputs are unbounded in size and kind; a silently accepted bad axis gives a wrong profile", "anchors": ["lasy/profiles/from_array_profile.py: FromArrayProfile.__init__"]}
{"id": "C141", "title": "Only the last normalisation matters", "statement": "In a history of apply_optics, propagate (absorbing layers included, on the grid of the laser) and normalize(kind='energy' or 'field') calls to positive values, the earlier normalisations have no effect on the field that a final normalize leaves: the history with and without them gives the same field on the same axes (when the energy, resp. the field, before the last one is not zero). On a lossless line (elements of modulus one, free propagation) normalising the energy first or last gives the same field.", "quantifier": "every laser that can be constructed with cells of non-negative volume, every such history of any length, every final value, for an external propagator with linear (for the second part also energy-conserving) steps", "why_tests_cant": "the equality must hold for all histories and all fields", "anchors": ["lasy/laser.py:Laser.normalize,Laser.apply_optics,Laser.propagate", "lasy/utils/laser_utils.py:normalize_energy,normalize_peak_field_amplitude"]}
{"id": "C142", "title": "apply_optics filters the sampled pulse as the analytic filter would", "statement": "For a new laser in the time window [t0-W, t0+W] whose field at a transverse cell holds the samples of a pulse with spectrum S, apply_optics(el) leaves there the samples of the pulse with spectrum T(w) S(w), where T is el's multiplier at that cell, up to a mean-square error that tends to zero for large windows with enough points; neither the periodicity of the FFT nor aliasing shows. In particular PolynomialSpectralPhase(gdd) turns a Gaussian pulse into the textbook chirped Gaussian.", "quantifier": "every continuous spectrum S and element whose multiplier is bounded, with S, its pulse and the filtered pulse decaying at least like the inverse square; every cell, geometry, transverse grid, energy, window and number of points", "why_tests_cant": "tests compare one pulse on one grid; the bound is over all pulses, filters and grids and includes the limit", "anchors": ["lasy/laser.py:Laser.apply_optics", "lasy/utils/grid.py:Grid", "lasy/optical_elements/polynomial_spectral_phase.py:PolynomialSpectralPhase"]}
{"id": "C143", "title": "duration behind a spectral filter", "statement": "After apply_optics with an element that is the same at every transverse position, get_duration of a pulse made of a transverse and a longitudinal profile tends, in large windows with enough time points, to the RMS duration of the filtered longitudinal pulse; for a Gaussian pulse of duration tau and PolynomialSpectralPhase(gdd) this is tau/2*sqrt(1+(2 gdd/tau^2)^2).", "quantifier": "every longitudinal spectrum and filter with cubic decay, every transverse profile, geometry, grid, number of modes, polarisation and energy, every tau>0, sign of gdd and window centre", "why_tests_cant": "a limit over all grids for all pulses; tests check one grid with a tolerance", "anchors": ["lasy/laser.py:Laser.apply_optics", "lasy/utils/laser_utils.py:get_duration", "lasy/optical_elements/polynomial_spectral_phase.py:PolynomialSpectralPhase"]}
{"id": "C144", "title": "On fine grids get_spectrum returns the spectral energy density of the pulse", "statement": "For a new laser in the window [t0-W, t0+W] that holds the samples of a pulse with spectrum S, get_spectrum(method='raw') returns at each listed frequency w half of S(w-omega0) with the phase of the start of the axis, up to an explicit bound from wrap-around and aliasing; method='sum' and 'on_axis' (with and without a range, whose interpolation is included) return eps0*c/pi*|S(w-omega0)/2|^2 times the transverse weight, uniformly in w, in the limit of large windows with enough points; for a laser of energy E (Cartesian, or one azimuthal mode) the 'sum' spectrum is E*|S(w-omega0)|^2/(2 pi * integral of |pulse|^2), so a Gaussian profile gives the textbook Gaussian spectrum E*tau/sqrt(2 pi)*exp(-tau^2 (w-omega0)^2/2).", "quantifier": "every continuous spectrum with inverse-square decay (pulse and spectrum), every transverse profile, geometry, cell, frequency, range, bin count, window and number of points", "why_tests_cant": "the bound and the limit range over all pulses, windows and grids; tests compare one grid with a tolerance", "anchors": ["lasy/utils/laser_utils.py:get_spectrum", "lasy/laser.py:Laser.__init__"]}
{"id": "C145", "title": "INSIGHT barycenter frequency is the power-weighted mean of the instantaneous frequency", "statement": "FromInsightFile with omega0='barycenter' gives the profile the frequency |sum w_k A_k^2 / sum A_k^2|, where A_k exp(-i q_k) is the field on the axis and w_k the rate of change of q (central differences), whenever the phase moves by less than pi per sample; for smooth A, q on fine axes this tends to the mean of q'(t) over the power A(t)^2, in rad/s.", "quantifier": "every amplitude and phase history, transverse grid, polarisation, number of time points; in the limit every continuous positive A and C1 phase q", "why_tests_cant": "holds for all phase histories and is a limit in the number of points; tests use one file", "anchors": ["lasy/profiles/from_insight_file.py:FromInsightFile.__init__"]}
{"id": "C146", "title": "FromArrayProfile approximates the field between the nodes", "statement": "A profile made by FromArrayProfile from samples of a field A exp(i phi) is, at any point inside the axes, as close to the field as modulus and phase change over one cell (error <= epsA + A*epsPhi), so that finer arrays converge to the field. False of the code: the phase is unwrapped along t only, so where the phase at the first time crosses the cut of np.angle between two transverse nodes the profile has the wrong sign, however fine the array is. True between the times at each transverse node, and everywhere if the phases at the first time stay in (-pi, pi].", "quantifier": "every array with ascending axes of any lengths and spacings whose phase moves by less than pi per time step, every point inside the axes, xyt and rt; in the limit every continuous field on a box", "why_tests_cant": "the bound is over all fields, axes and points, and the limit over all resolutions; tests look at the nodes of one array", "anchors": ["lasy/profiles/from_array_profile.py:FromArrayProfile"]}
{"id": "C147", "title": "Camera images with fine pixels give the right centre, D4sigma and profile", "statement": "For any continuous non-negative intensity on a camera window, as the pixels become fine: find_center_of_mass (in metres) tends to the centroid of the intensity, find_d4sigma (in metres) to four standard deviations, TransverseProfileFromData(center_data=False) to the square root of the normalised intensity uniformly on the whole window, and with center_data=True to the same profile moved so that its centroid is at the origin, uniformly wherever the moved points come from inside the camera window.", "quantifier": "all continuous non-negative intensities with a non-zero integral, all windows, all points of the window, all sufficiently fine pixel counts in both directions independently", "why_tests_cant": "a test sees one image with one resolution; the limit and its uniformity are statements about all of them", "anchors": ["lasy/utils/exp_data_utils.py: find_center_of_mass, find_d4sigma", " lasy/profiles/transverse/transverse_profile_from_data.py: TransverseProfileFromData"]}
{"id": "C148", "title": "The frequency of chirped pulses", "statement": "get_frequency returns the instantaneous frequency omega0 + dq/dt of an envelope A exp(-i q): exactly, at every sample including the ends of the time axis and on non-uniform axes, for linear chirps whose phase is resolved; and for every smooth phase in the limit of fine grids, uniformly on the grid, cut at the bounds relative to the central frequency, which tends to the amplitude-weighted mean of the instantaneous frequency. field_to_vector_potential tends to the field divided by i m_e c omega/e with that frequency.", "quantifier": "all positive continuous amplitudes, all phases continuously differentiable in time, all windows, carriers, bounds and sufficiently fine grids; for chirps all increasing axes that resolve the phase", "why_tests_cant": "a test compares one pulse on one grid with a tolerance; exactness at all samples and uniform convergence for all smooth pulses are not testable", "anchors": ["lasy/utils/laser_utils.py: get_frequency, field_to_vector_potential"]}
{"id": "C149", "title": "n-dimensional phase unwrapping only changes the choice of carrier", "statement": "field_to_envelope(phase_unwrap_nd=True) leaves an envelope that represents exactly the original real field with the returned frequency, whatever scikit-image's unwrap_phase computes: Re(envelope exp(-i w t)) = E at every sample. Compared with phase_unwrap_nd=False the envelope has the same modulus and times the carrier the same analytic signal. Adding a constant phase per transverse point to the result of unwrap_phase changes nothing; without scikit-image the call raises; for an envelope the option has no effect.", "quantifier": "all real fields with at least three time samples and non-zero weighted amplitude, all functions unwrap_phase, all grids", "why_tests_cant": "unwrap_phase is an external heuristic; a test sees one unwrapped image, not every possible one", "anchors": ["lasy/utils/laser_utils.py: get_frequency, field_to_envelope", "lasy/profiles/from_openpmd_profile.py: FromOpenPMDProfile"]}
{"id": "C150", "title": "Hermite-Gauss weights with fine resolution are overlap integrals and obey Bessel's inequality", "statement": "For every continuous transverse profile that is not zero in its window, as the resolution becomes fine, hermite_gauss_decomposition succeeds with a positive waist close to one of the 30 candidates around the sum of the standard deviations of the intensity, every weight tends to the overlap integral over the window of the real part of the field with the Hermite-Gauss mode of the returned waist, and the sum of the squares of the weights is at most the energy of the real part of the field in the window, hence at most the energy of the beam.", "quantifier": "all continuous profiles with non-zero energy in the window, all numbers of modes, all sufficiently fine resolutions", "why_tests_cant": "a test decomposes a few beams with one resolution; the limit and the inequality are statements about all beams and all mode counts", "anchors": ["lasy/utils/mode_decomposition.py: hermite_gauss_decomposition, estimate_best_HG_waist"]}
{"id": "C151", "title": "The energy of a sum of orthogonal pulses is the sum of their energies", "statement": "On every box that is large enough and every grid that is fine enough, a laser made from a SummedProfile of any number of pairwise orthogonal, square integrable pulses has, up to any given error, the sum of the energies of the pulses, in both geometries. In particular f1*HG1 + f2*HG2 + ... of different Hermite-Gauss modes with common waist, focal plane and longitudinal profile has the energy eps0 c/2 * integral |G|^2 dt * (f1^2 + f2^2 + ...), and Laguerre-Gauss modes add with the factors of C120.", "quantifier": "all finite lists of profiles or modes, all factors, waists, focal planes, longitudinal profiles, all sufficiently large boxes and fine grids", "why_tests_cant": "a test adds two modes on one grid and compares with a tolerance; additivity for every list of modes in the limit is not testable", "anchors": ["lasy/profiles/profile.py: SummedProfile, ScaledProfile", "lasy/utils/laser_utils.py: compute_laser_energy", "lasy/profiles/transverse/hermite_gaussian_profile.py", "lasy/profiles/transverse/laguerre_gaussian_profile.py"]}
{"id": "C152", "title": "Measured temporal data with a fine sampling give the measured pulse", "statement": "LongitudinalProfileFromData with temporal data of a continuous intensity and phase recorded on any sufficiently dense increasing time axis that covers [lo, hi] evaluates, at every time and up to any given error, to sqrt(intensity) exp(-i phase) at that time inside [lo, hi] and at the nearest end of [lo, hi] outside; without a phase array to the root of the intensity.", "quantifier": "all continuous intensities and phases, all domains, all dense increasing axes (not only uniform ones), all times", "why_tests_cant": "a test samples one pulse on one axis; the uniform limit over all axes and pulses is not testable", "anchors": ["lasy/profiles/longitudinal/longitudinal_profile_from_data.py: LongitudinalProfileFromData.__init__, evaluate"]}
{"id": "C153", "title": "The envelope has the energy of the real field", "statement": "After field_to_envelope on a grid that holds a real field, compute_laser_energy gives the energy of the real field less half of the energy of the constant and of the alternating (Nyquist) part of the field in each cell; so at most the energy W of the field and at least W/2, and exactly W if the field has no such parts. The same with phase_unwrap_nd=True, whatever scikit-image returns.", "quantifier": "all shapes with at least three time samples, all grids, all real fields with non-zero total weight", "why_tests_cant": "every real field on every grid: a test sees one carrier and one tolerance", "anchors": ["lasy/utils/laser_utils.py: field_to_envelope, hilbert_transform, compute_laser_energy"]}
{"id": "C154", "title": "Passive beam lines never add energy and never amplify differences", "statement": "For every list of apply_optics with |T| <= 1 and propagate (with or without absorbing layer): if the external propagator is linear and norm-preserving, the energy at the end is at most the energy at the start; two pulses on the same grid sent through the same line differ at the end by at most the energy of their difference at the start; and if the elements of two lines differ, the square root of the energy of the difference grows by at most the sum of max|T-T'| times the square root of the energy. One element with |T| <= M multiplies the energy by at most M^2.", "quantifier": "all lengths of beam lines, all passive elements, all pairs of pulses on a common grid", "why_tests_cant": "an induction over all histories; tests run a few lines with a few pulses", "anchors": ["lasy/laser.py: Laser.apply_optics, Laser.propagate", "lasy/utils/laser_utils.py: compute_laser_energy"]}
{"id": "C155", "title": "normalize(kind='field') in rt sets the peak field", "statement": "After laser.normalize(A, kind='field') with A > 0 of a laser with a non-zero field in rt geometry, the greatest modulus over all angles, radii and times of the field that the azimuthal modes stand for, sum over m of f_m exp(-i m theta), is A.", "quantifier": "every rt laser with a non-zero field, every number of azimuthal modes, every A > 0", "why_tests_cant": "Tests use rt lasers with one mode or axisymmetric profiles; the claim quantifies over all mode contents and a continuum of angles.", "anchors": ["lasy/utils/laser_utils.py:normalize_peak_field_amplitude", "lasy/laser.py:Laser.normalize"]}
{"id": "C156", "title": "normalize(kind='field') does not depend on the grid", "statement": "For a continuous profile with largest modulus M > 0 in the box, a laser built on a fine enough xyt grid and then normalized with laser.normalize(A, kind='field') has, at all grid points, a field arbitrarily close to A/M times the profile, and an energy arbitrarily close to (A/M)^2 times the energy of the profile in the box, whatever energy the laser was built with. The same on cylindrical grids for round profiles and every number of modes, where the higher modes stay zero. For GaussianProfile in a large enough box: |E| = A exp(-(x^2+y^2)/w^2) exp(-(t-t_peak)^2/tau^2) with w the beam size at the entrance plane, and energy eps0 c A^2/2 * pi w^2/2 * tau sqrt(pi/2).", "quantifier": "all continuous profiles, boxes, peak fields, construction energies; all grids finer than a bound that depends on the accuracy", "why_tests_cant": "a limit over all refinements of the grid; a test sees one grid", "anchors": ["lasy/utils/laser_utils.py:normalize_peak_field_amplitude", "lasy/laser.py:Laser.__init__", "lasy/profiles/gaussian_profile.py:GaussianProfile"]}
{"id": "C157", "title": "The energy an axiparabola lets through", "statement": "Applying an Axiparabola of radius R with laser.apply_optics to a laser built on a cylindrical grid from a round profile leaves, on fine enough grids, an energy arbitrarily close to E times the fraction of the energy of the profile within radius R. The same on Cartesian grids, for profiles of any shape, if the box contains the cylinder of radius R. For GaussianProfile in a large enough box: E (1 - exp(-2 R^2/w^2)), with w the beam size at the entrance plane; focal length and depth do not matter.", "quantifier": "all round continuous profiles, boxes wider than R, energies, focal lengths and depths; all grids finer than a bound that depends on the accuracy", "why_tests_cant": "a limit over all refinements of the grid of a sum cut at a radius that is in general not a grid point", "anchors": ["lasy/optical_elements/axiparabola.py:Axiparabola.amplitude_multiplier", "lasy/laser.py:Laser.apply_optics", "lasy/utils/laser_utils.py:compute_laser_energy"]}
{"id": "C158", "title": "The normalised vector potential of a pulse without chirp", "statement": "If the phase of the envelope does not change in time (it may differ from place to place, as with curved phase fronts), field_to_vector_potential returns -i e E / (m_e omega0 c) at every point, with no error from the numerical derivative, and so does a file written with save_as_vector_potential=True, read by the openPMD rule at any angle if it is cylindrical. This is so for every new laser made from any transverse profile and a Gaussian or super-Gaussian longitudinal profile, or a cosine profile in a window inside its support. In particular a laser made from GaussianProfile with energy E > 0 has, in large enough boxes and on fine enough Cartesian or cylindrical grids, the textbook vector potential a0 (w0/w) exp(-r^2/w^2) exp(-(t-t_peak)^2/tau^2) with a0 = e A/(m_e omega0 c) and A the peak field belonging to E.", "quantifier": "all unchirped fields on all grids with at least three time samples; all wavelengths, energies, waists, durations and focal distances; all boxes and grids larger and finer than bounds that depend on the accuracy", "why_tests_cant": "a limit over boxes and grids, and an exactness statement for every field; tests compare a few values of a0", "anchors": ["lasy/utils/laser_utils.py:field_to_vector_potential", "lasy/utils/laser_utils.py:get_frequency", "lasy/utils/openpmd_output.py:write_to_openpmd_file", "lasy/profiles/gaussian_profile.py:GaussianProfile"]}
{"id": "C159", "title": "The plane that get_full_field shows, for every slice", "statement": "On a Cartesian laser get_full_field(slice=a, slice_axis='x' or 'y') shows, for every real a, the plane whose index is the whole part of (1 + a)(N//2 - 1), counted from the end if it is negative, and raises IndexError if there is no such plane; with any other slice_axis it returns None; the laser keeps its field in all cases. So for -1 <= a <= 1 a plane is always shown but never the last one, values just below -1 wrap around to the other side of the box, and on an axis with two or three points the plane is always the first. With Nt given, the field is never extrapolated: a time axis that starts after grid.lo gives a ValueError.", "quantifier": "all Cartesian lasers, all real slice values, all axis names and numbers of points", "why_tests_cant": "every real slice and every number of points; tests use slice=0", "anchors": ["lasy/utils/laser_utils.py:get_full_field"]}
{"id": "C160", "title": "get_full_field with Nt approximates the field between the time samples", "statement": "With Nt given, every pixel of the image of get_full_field differs from the real field Re(E exp(-i omega0 t)) at the new time by at most ten times the variation of the complex envelope over one time step, whatever the samples are: they may pass through zero, where the unwrapped phase jumps. So for every continuous profile the image of a new laser with enough time samples is as close as one likes to the real field of the plane, for every Nt, every slice (Cartesian) and every angle (round profiles on cylindrical grids).", "quantifier": "all lasers with a uniform time axis, all fields, slices, angles and Nt; all continuous profiles, and all grids finer than a bound that depends on the accuracy", "why_tests_cant": "a bound over all fields including those with zeros, where interpolating an unwrapped phase looks dangerous, and a limit over grids", "anchors": ["lasy/utils/laser_utils.py:get_full_field", "lasy/laser.py:Laser.__init__"]}
{"id": "C161", "title": "Enough Hermite-Gauss modes reproduce the beam", "statement": "For every continuous real transverse profile that is not zero in its window, hermite_gauss_decomposition with enough modes in both directions and a fine enough resolution returns a waist and weights such that the weighted sum of HermiteGaussianTransverseProfile(waist, n_x, n_y) is arbitrarily close to the profile in the mean square over the window and carries arbitrarily little energy outside of it. For complex fields what is missing is the imaginary part.", "quantifier": "all continuous profiles and windows, all accuracies, all larger numbers of modes and all finer resolutions", "why_tests_cant": "Tests compare a few weights of beams that are themselves sums of few modes; completeness is a statement about all beams and infinitely many modes.", "anchors": ["lasy/utils/mode_decomposition.py:hermite_gauss_decomposition", "lasy/utils/mode_decomposition.py:estimate_best_HG_waist", "lasy/profiles/transverse/hermite_gaussian_profile.py:HermiteGaussianTransverseProfile.evaluate"]}
{"id": "C162", "title": "D4sigma of beams and modes", "statement": "On large enough windows and with fine enough pixels, find_d4sigma measures any continuous intensity with finite power and second moments as four times its standard deviations over the whole plane. For the picture of a Hermite-Gauss mode (m, n) of waist w0, at any distance from its waist and with any factor between intensity and pixel value, that is 2 w sqrt(2m+1) by 2 w sqrt(2n+1), and for a Laguerre-Gauss mode (p, m) it is 2 w sqrt(2p+|m|+1) in both directions, where w = w0 sqrt(1 + (z/zR)^2) is the beam radius there.", "quantifier": "every beam, mode family and order, waist, distance from the waist, exposure factor, accuracy, and every large enough window and pixel count", "why_tests_cant": "a limit over all windows and resolutions, for all mode orders", "anchors": ["lasy/utils/exp_data_utils.py: find_d4sigma", "lasy/profiles/transverse/hermite_gaussian_profile.py: HermiteGaussianTransverseProfile._evaluate", "lasy/profiles/transverse/laguerre_gaussian_profile.py: LaguerreGaussianTransverseProfile._evaluate"]}
