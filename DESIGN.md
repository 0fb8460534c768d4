# Formal model of LASY-org/lasy in Lean 4

English statements: `properties.jsonl`. Status per property: `MANIFEST.json`. Axioms per theorem: `AXIOMS.txt`
(regenerate with `tools/axioms.py`). Mutation log: `seeded/LOG.jsonl` (runner: `tools/seed.py`).

## 1. What is modelled, and how

The model is a function-by-function, shallow transcription of `/repo/lasy`:

* **Numbers.** Python/NumPy floats are modelled by exact reals `ℝ`, `complex128` by `ℂ`. Rounding, overflow,
  `nan`/`inf` are *not* modelled; inputs on which the code would produce `nan` (negative energies, zero
  polarisation, zero-sum images, ...) are excluded by explicit hypotheses or rejected by the model, and named there.
  Tolerances that the code itself applies (`isclose`, `allclose`) are modelled with their documented numbers.
* **Arrays.** A 3-D array of fixed shape is `Fin n0 → Fin n1 → Fin nt → ℂ`. Arrays supplied by a caller, whose
  shape/dtype the code checks, are `NdArray` (shape list, dtype, element function).
* **Exceptions and mutation.** A method is `σ → Except PyErr α × σ` (`Py σ α`): an exception does *not* roll
  back the state, as in Python.
* **Aliasing.** Most of the model passes arrays by value. Where sharing is the point, there is a heap model with
  references, and the client's own writes are steps of the history: `Model/GridHeap` (fields of a `Grid`),
  `Model/TransverseHeap` (offsets of shared profile objects), `Model/AxesHeap` (axes shared by `propagate(grid=g)`).
* **External code** (axiprop propagators, openPMD-api, `np.random`) is a parameter of the
  model; a theorem that needs a fact about it takes this fact as an explicit hypothesis (a contract), with a witness
  that some non-trivial implementation meets it.
* **NumPy/SciPy primitives** (`linspace`, `arange`, `fft`, `ifft`, `fftfreq`, `interp`, `unwrap`, `gradient`, `roll`,
  `hilbert`, `RegularGridInterpolator`, slicing, negative indices, `int()`, `round`, `isclose`) are defined in
  `Verif/Numpy` and, where used once, beside the model, from their documentation. `eval_hermite`, `genlaguerre`, `jv`
  are the textbook polynomials / power series.

Layout of `lean/Verif`: `Numpy/` primitives, `Model/` the model (each definition cites file and lines in `/repo`),
`Spec/` small independent specifications, `Lemmas/` proof machinery, `Props/` the property theorems (`Cnn_...`) with
non-vacuity examples beside them.

### Naming of theorems

`Cnn_<what>` is a full theorem. `Cnn_<what>_partial` proves part of the property; its comment and the MANIFEST note
say what is missing. `Cnn_<what>_refuted` proves that the property, as documented or as a user would expect it, is
*false of the code*, either for a whole class of inputs or by a concrete witness. A property with a `_refuted` theorem
has status `partial`: the `_partial` theorems say what the code does instead.

## 2. Source files and their models

| source | model | not modelled |
|---|---|---|
| `utils/grid.py` | `Model/Grid`, `GridCalls`, `GridHeap` | dtype casts of caller arrays other than the check itself |
| `laser.py` | `Model/Laser` (construction), `Propagate`, `AxesHeap`, `Optics` (`apply_optics`), `Show`, `Energy` (`normalize`) | matplotlib drawing beyond image and extent |
| `utils/laser_utils.py` | `Model/Energy`, `Utils` (duration, spectrum by sum), `Spectrum` (all methods), `Hilbert` (`create_grid`, `field_to_envelope`), `FullField`, `ImportExport` (`export_to_z`, `import_from_z`), `UnwrapNd` (`phase_unwrap_nd=True`) | the algorithm of scikit-image's `unwrap_phase` (a parameter of `Model/UnwrapNd`) |
| `utils/openpmd_output.py`, `openpmd_input.py`, `profiles/from_openpmd_profile.py` | `Model/OpenPMD` | the file format itself (openPMD-api/-viewer are a name → record map) |
| `profiles/profile.py`, `combined_profile.py`, `gaussian_profile.py` | `Model/Profile`, `TransverseHeap` | |
| `profiles/longitudinal/*` | `Model/Longitudinal`, `LongFromData` | |
| `profiles/transverse/*` | `Model/Transverse`, `FromData` | |
| `profiles/from_array_profile.py` | `Model/FromArray` | |
| `profiles/from_insight_file.py` | `Model/Insight` | h5py: the three arrays are arguments |
| `profiles/speckle_profile.py` | `Model/Speckle` | the random generator: draws are arguments |
| `optical_elements/*` | `Model/Optics` | |
| `utils/zernike.py` | `Model/Zernike` | int64 overflow of factorials |
| `utils/mode_decomposition.py` | `Model/ModeDecomp` | |
| `utils/phase_retrieval.py` | `Model/PhaseRetrieval` | |
| `utils/exp_data_utils.py` | `Model/FromData` | |
| `examples/`, `docs/`, `tests/` | — | everything |

### Simplifications (each is also stated in the comment of the definition)

* `Grid`: the attributes `dim`, `lo`, `hi`, `npoints`, `axes` are one value `geom` + time axis; after a failed resample
  the model has no separate stale `dim`.
* `propagate(grid=g)`: the value model takes the geometry of `g` by value and requires the same number of time samples
  (the code takes over the time axis of the old grid); sharing of the axis object is `Model/AxesHeap`.
* axiprop is a record of functions (`Axiprop`), with contracts `Additive` (two steps compose), `Unitary` (per-frequency
  norm is kept), `Linear`. `Lemmas/AxipropWitness` gives a non-trivial propagator (`freeSpace`) meeting them all.
* `RegularGridInterpolator`: linear method, strictly ascending or descending axes of two points or more (SciPy also accepts
  one point); out-of-bounds rule as given by the caller.
* `TransverseProfileFromData`, `LongitudinalProfileFromData`: `nan` results are errors in the model; decreasing
  axes where the code does not sort them are rejected where noted.
* `create_grid`/`FromOpenPMDProfile`: the comparison of axes is exact equality of reals where the code compares floats.
* Gerchberg–Saxton: both lasers have the same shape; a zero image gives `nan` and is excluded.
* Speckle: draws of the random generator are arguments, universally quantified in the theorems; `nan` is `none`.
* Hermite–Gauss decomposition: `res = 0` and a `nan` first waist are excluded.
* `Model/Show`, `FullField`: the colour map and labels of the axes as text are dropped; image array and `extent` are kept.
* `ImportExport`: axiprop's time↔space transforms enter by their contract on transversely uniform fields.

## 3. Plan and proof method per property

| id | model | proof |
|---|---|---|
| C01 C02 C03 C05 | `Grid` methods over states (caches + valid flags) | refinement to a one-register spec (`Option Field`) by induction over histories |
| C04 | heap of arrays with references, client writes interleaved | refinement of the heap model to the value model; ownership invariant |
| C06 | `set_is_envelope` | negation by witness; `_partial`: coherent if only the temporal cache is valid |
| C07 C08 | DFT sums | orthogonality of characters (geometric sums of roots of unity) |
| C09 C10 C11 | `Grid.__init__`, `get_grid_cell_volume` | algebra, telescoping sums |
| C12 C13 C14 C66 | `Laser.__init__`, `show` | DFT inversion on angles; energy scaling |
| C15-C18 | `normalize*` | scaling of sums/suprema; C17 is refuted (the code raises) |
| C19-C23 C74 | `apply_optics`, optical elements | pointwise algebra, Parseval, DFT shift theorem; C74 is an invariant over histories |
| C24-C32 C67 | `Laser.propagate` with abstract axiprop | invariants over histories; C29, C31, C32, C67 refuted in general, partial |
| C33-C36 C68 C69 | openPMD output/input, a file system as a map | trigonometric identities, index reversal, injectivity of decimal names, induction over writes |
| C37-C39 C44 C70 | profile expressions (and the heap of shared objects) | structural induction on expressions, induction over histories |
| C40-C43 C100 | analytic profiles | `exp`, derivatives, Gaussian integral, power series |
| C41 C71 | Gaussian/Hermite–Gauss | the paraxial equation by differentiation; orthonormality by integration of Hermite polynomials |
| C45 C72 | Laguerre–Gauss | Laguerre recurrences; the paraxial equation; refuted for m ≠ 0, m < 0 |
| C46 C47 | `FromArrayProfile` | interpolation at nodes, permutation of axes |
| C48 C50 C78 | camera data | finite sums, roll invariance |
| C49 C79-C82 | spectral/temporal data | interpolation at nodes, FFT sums |
| C51 C52 C77 | Zernike | integer square-root bounds; finite differences of binomials; integration in polar coordinates |
| C53 C54 C58 C86 C87 C97 | `get_frequency`, vector potential | unwrap/gradient lemmas |
| C83 C84 | `field_to_envelope` | the FFT form of the Hilbert transform |
| C55 C73 C102-C106 | `get_spectrum` | Parseval, DFT of lines, `np.interp` as a polygon |
| C56 | `get_duration` | algebra of weighted sums |
| C57 C75 C76 C98 C101 | `get_full_field`, `show` | index arithmetic, interpolation |
| C59 C85 | `FromOpenPMDProfile`, `create_grid` | shape/exception model; C59 refuted: the constructor always raises |
| C60 C61 | Gerchberg–Saxton | loop model with fuel and relational semantics; error-reduction inequality |
| C62-C64 C88-C92 | speckle | finite sums, floor/ceil arithmetic, invariants of index computations |
| C65 C93-C96 | Hermite–Gauss decomposition | floor arithmetic, argmax, parity of Hermite functions |
| C99 | optical elements as ray optics (`Spec/Rays`) | derivatives of the phase |
| C107 C108 C109 | `FromInsightFile` (`Model/Insight`) | `np.gradient`/`np.unwrap` on lines; conjugation; C109 refuted by a witness |
| C110 C111 | objects with identities (`Model/AxesHeap`) | invariant over interleavings: who shares which array; C111 refuted, partial |
| C112-C115 | `export_to_z`, `import_from_z` (`Model/ImportExport`) | contract on axiprop for fields without diffraction; DFT of harmonics on shifted axes, Parseval |
| C116 | the same | case analysis; refuted for `export_to_z` in `xyt` |
| C117 | the mirror's multiplier on the mode profiles (`Spec/Lens`) | complex beam parameter algebra |
| C118 C119 | `PolynomialSpectralPhase` on pulses in continuous time (`Spec/Chirp`) | Gaussian Fourier integrals; Plancherel and derivatives of the transform |
| C120 | Laguerre–Gauss on the plane | polar coordinates, the Gamma integral, finite differences; the energy part refuted for m ≠ 0 |
| C121 | `estimate_best_HG_waist` | case analysis; refuted by small pixels |
| C122 | `Laser.__init__` (rt), `compute_laser_energy` | Parseval over the sampled angles and on the circle |
| C123 | `Laser.__init__` (rt) | shift of the discrete Fourier sum over the angles |
| C124 | `Laser.__init__` (rt) | reflection, conjugation and character orthogonality in the sum over the angles |
| C125 | `get_frequency` | unfolding `np.average` over all cells; refuted for envelopes in rt |
| C126 | `Laser.__init__`, `compute_laser_energy` | left and `linspace` sums converge uniformly in parameters (uniform continuity on compact sets), nested three times; Parseval over the angles; polar coordinates |
| C127 | `Laser.__init__`, `get_duration` | the same sums for the moments, variance about any point, continuity of quotients and roots |
| C128 | `apply_optics`, `propagate` (all branches) | every successful call acts on the field by one linear map shared by all lasers with the same setup; induction over the history |
| C129 | `apply_optics`, `propagate` | induction over the beam line from outside in, with the cache invariant |
| C130 | `Laser.__init__`, `apply_optics`, `normalize`, `propagate`, longitudinal profiles | simulation between two runs: relation "same setup, displaced" kept by every call |
| C131 | `Laser.__init__`, `normalize` | the energy of the samples converges (C126), the scale is the root of a ratio, continuity of roots and quotients, boundedness on compact sets |
| C132 | `Laser.__init__` (rt) | left sums over the angles converge to integrals uniformly in (r, t) on compact sets |
| C133 | `Laser.__init__`, `GaussianProfile` | C131 plus Gaussian integrals over intervals and discs, monotone in the box |
| C134 | `getDuration`, `combinedProfile`, `gaussianLong`, `superGaussianLong`, `cosineLong`, `Laser.init` | the field of a new laser factorises in both geometries; RMS of the longitudinal samples; Riemann sums, then improper integrals (Gamma function, antiderivatives) |
| C135 | `Speckle.evaluate`, `pattern` | orthogonality of roots of unity, Parseval in two dimensions |
| C136 | `Speckle.evaluate`, `phasePlate`, draws as random variables | `Lemmas/Phasors`: second and fourth moments of sums of independent phase factors, by induction on the set of beamlets |
| C137 | `gerchbergSaxton`, `gsPhase`, `gsForth` | fixed points of the iteration, induction on the extra iterations |
| C138 | `laguerreGaussianTrans`, `hermiteGaussianTrans`, `gaussianTrans`, `superGaussianTrans`, `superGaussianLong`, `gaussianLong` | unfolding; products of Hermite polynomials of total order N are closed under the raising operator, induction on p |
| C139 | `writeToFile`, `fromOpenPMDEnvelope`, `FromArray.init`, `Laser.init`, `runOps` | round trip of the file, then a simulation relation between the old and the new laser, preserved by every call |
| C140 | `FromArray.init`, `lookup`, `rgiAxis` | case analysis of the constructor; axes in either direction by the involution that flips them |
| C141 | Laser.normalize, apply_optics, propagate in histories | induction on the history: the two lasers differ by a positive factor, which the last normalisation removes; lossless lines by C20, C27 |
| C142 | `apply_optics` (`laser.py`), `PolynomialSpectralPhase` | Poisson summation for the sampled pulse: the DFT of the samples is the periodised spectrum, minus the wrap-around of the other periods. Both errors bounded for pulses and spectra that decay at least quadratically, Parseval turns them into a mean-square bound; limits in the window and the number of points; instantiated for the chirped Gaussian (C118) |
| C143 | `apply_optics` followed by `get_duration` | moments of samples with a small mean-square error (C142 with cubic decay) converge; Gaussian integrals for the chirped pulse |
| C144 | `get_spectrum` (all methods, range) on a new laser | DFT of samples = periodised sums (Poisson argument of C142), moduli squared, polygon interpolation, uniform continuity |
| C145 | `FromInsightFile`, omega0='barycenter' | unwrap is unique (C108), gradient on a uniform axis; mean value theorem and Riemann sums for the limit |
| C146 | `FromArrayProfile` between the nodes | weights are a convex combination of the cell's corners; unwrap is unique; Heine–Cantor for the limit; the plane wave exp(ix) at x = π for the refutation |
| C147 | camera images with fine pixels | sums over pixels are Riemann sums in two variables; one uniform-continuity argument for the root of the normalised image with a shift; `np.roll` by whole pixels is the centroid within one and a half pixels |
| C148 | the frequency of chirped pulses | `np.gradient(edge_order=2)` is exact on quadratics; first-order remainder and uniform continuity of dq/dt for the limit; the cut is Lipschitz |
| C149 | `phase_unwrap_nd=True` (`Model/UnwrapNd`) | the unwrapper is universally quantified; the analytic signal does not depend on it |
| C150 | `hermite_gauss_decomposition` with fine resolution | Riemann sums uniform in the waist over a compact interval; orthonormality of the modes on the plane and Bessel's inequality on the window |
| C151 | `SummedProfile`, `ScaledProfile` → `Laser.__init__` → `compute_laser_energy` | C126 plus exhaustion of space by boxes and cylinders; orthogonality of the modes (C71, C120) |
| C152 | `LongitudinalProfileFromData`, temporal data | interpolation is a convex combination of near samples; uniform continuity; the cut loses at most two gaps |
| C153 | `fieldToEnvelope` and `computeLaserEnergy` of real fields | Parseval for the Hilbert mask, the frequencies 0 and Nyquist count half; bounds by `|Re z| ≤ |z|` |
| C154 | histories of `apply_optics` and `propagate` of two lasers in lock step | energy as a Euclidean norm, Parseval per element, Minkowski, induction over the pair of lines |
| C155 | `normalizePeakField` on an `rt` field with several modes; spec `fieldAtAngle` (the physical field at an angle) | refuted: for all `x G(x²+y²,t)` and `n ≥ 2` the physical peak is `2A` (C12 + C16); bounds `A ≤ peak ≤ (2n-1)A` because a mode is the mean of the field over `2n-1` angles (orthogonality of characters) |
| C156 | `Laser.init` + `Laser.normalize(_, 'field')` on `xyt` grids, limit of fine grids | a node near the maximum of the profile exists on fine grids, so the discrete maximum converges; energy by C126; Gaussian: Gaussian integrals over large boxes |
| C157 | `Laser.init` + `Laser.applyOptics (axiparabola ..)` + energy on `rt` grids, limit of fine grids | the cut at R is squeezed between continuous ramps, whose Riemann sums converge; Gaussian: explicit radial integral |
| C158 | `fieldToVectorPotential`, `writeToFile` with `asVectorPotential`, `gaussianProfile` + `Laser.init` | the unwrapped phase of an unchirped field is constant, so its gradient vanishes; with C133 for the peak field |
| C159 | `getFullField` (`sliceIndex`, `pyIndex`, `cutPlane`, `interp1`) | case analysis on the whole part of `(1 + slice)(N//2 - 1)`; specification `WholePart`, `Counts` in plain arithmetic |
| C160 | `getFullField` with `Nt` (`resampleTime`, `unwrap`, `interp1`) | only the two samples around a time have a weight; their unwrapped phases differ by at most pi, hence by the angle between the samples: error 10 times the local variation; uniform continuity for the limit |
| C161 | `hgDecomposition`, `hermiteGaussianTrans` | completeness of the Hermite functions (moments determine a function with Gaussian decay: Fourier transform and power series), Parseval in L2, continuity of the overlaps in the waist around the 30 candidates of C150 |
| C162 | `findD4sigma`, `hermiteGaussianTrans` | intensity of the mode factorises at every distance; moments 0, 1, 2 of each factor by the three-term recurrence and orthogonality of the Hermite functions; windows growing to the whole line; C147 for fine pixels; for any beam with finite second moments, the window integrals tend to the integrals over the plane (`C162_any_beam`); Laguerre-Gauss modes through polar coordinates and the second moment of the Laguerre polynomials |

Besides the examples in each file, `Props/Witnesses` and `Props/WitnessesData` apply theorems to concrete,
non-trivial profiles, grids, camera images and recordings, to show that their hypotheses can be met.

## 4. Trusted base

* Lean's kernel. Axioms: every theorem of the manifest depends on exactly `propext`, `Classical.choice`, `Quot.sound`
  (Mathlib's standard ones); the list is in `AXIOMS.txt`. No axiom is added, no compiled code is trusted.
* The reading of the Python source recorded in the comments of `Model/`. The code was not run.
* The NumPy/SciPy semantics written down in `Numpy/` and beside the models.
* The contracts on external code: explicit hypotheses of the theorems that use them.
* Physical constants are arbitrary positive reals (`class Phys`), so no theorem depends on their values, except where
  a concrete wavelength is a witness (C39).
