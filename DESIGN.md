# Formal model of ergodicio/adept - design

## Approach

* Discrete code (OSIRIS deck parser/renderer/overrides, streaming converter,
  runner, dump listing, MLflow logging helpers, lifecycle, dispatch tables) is
  modelled as total computable Lean functions over `List Char`, `List`, `Int`,
  `Option`, `Except`.  Exceptions are values.  Dictionaries are insertion-ordered
  association lists with Python's overwrite-in-place semantics.
* Concurrency and crashes (streaming converter) are modelled as a small-step machine:
  a schedule is an arbitrary list of operations of OSIRIS, the watcher, the fault
  injector and the process killer, and theorems quantify over all such lists.
* Numerical kernels are modelled in exact arithmetic over `ℝ` (or any linearly
  ordered field), with arrays as functions of the index.  Fourier transforms are
  Mathlib's `ZMod.dft`.  Floating-point rounding is *not* modelled: theorems about
  numerics are about the exact-arithmetic reading of the array expressions.
* Every definition cites the `/repo` file and lines it models.  Property theorems
  live in `lean/Verif/Props/*.lean`, specifications in `Spec/`, helper lemmas in
  `Lemmas/`.  Beside each theorem an `example` shows a concrete case meeting its
  hypotheses (or the theorem has none).
* Where the code violates the stated property, the negation is proved with a
  concrete witness, and the strongest true fragment is proved as `..._partial`.
* The theorems are tested against wrong programs: `seeded/LOG.jsonl` records each
  edit of the model, the theorems that broke and the ones tightened because of it.

## Trusted base

* Lean 4.33.0's kernel and Mathlib's definitions.
* Axioms: every theorem named in MANIFEST.json depends on at most `propext`,
  `Classical.choice` and `Quot.sound` (checked with `#print axioms`).  No axioms are
  added; no proof rests on compiled code.
* The reading of the Python code recorded in the comments of `Verif/Model/*`: there is
  no machine-checked link between /repo and the model.
* Exact arithmetic in place of floating point, and the simplifications listed at the
  head of each model file.
* External code is a parameter, a relation or absent (see the module table): JAX
  tracing/compilation and sharding, diffrax (except explicit Runge-Kutta stages),
  lineax / `tridiagonal_solve` (any solution of the linear system), Newton
  iterations, xarray / h5py / netCDF, MLflow, pint parsing, subprocesses, the clock,
  random generators (arbitrary values, or variables with stated moments).

## Property table

`status` and notes are those of MANIFEST.json; the theorem names are listed there too.

| id | property | what is modelled | how it is proved | status and limits |
|---|---|---|---|---|
| C01 | OSIRIS deck round trip | parser, renderer on character lists (Model/Deck) | negation witnesses; induction over sections, keys and values for all clean decks | **partial**. False as stated (two witnesses: trailing comma, embedded double quote). Proved for every deck whose parse has no trailing-None list and no string with a double quote / a newline next to an odd quote. |
| C02 | Deck comments never change the deck | same | induction over the line with the quote state | **proved**. A comment that is the entire unterminated last line is excluded. |
| C03 | Deck parsing always terminates with sections or a ValueError | same; the scanner is a structural recursion with fuel = length | fuel sufficiency | **proved**.  |
| C04 | Overrides touch exactly the sections they name | merge_overrides, _merge_params, _find_param_key | induction over the overrides | **proved**.  |
| C05 | Override key resolution | same | case analysis on the lookup order | **proved**.  |
| C06 | Deck parameter logging loses nothing and uses legal names | _sanitize_key, deck_to_flat_dict | invariant of the dictionary fold; collision witness | **partial**. Names are always legal; losslessness is false (collision witness) and proved when no two parameters share a sanitised name. |
| C07 | Stream writer is a lossless log | StreamWriter state machine (Model/Stream) | invariant over all operation lists | **proved**. For the append/flush/close/reopen protocol; writer_append_after_close_lost shows what happens outside it. |
| C08 | Streaming conversion is exactly-once and in order | StreamConverter for one diagnostic; OSIRIS, watcher, faults and kills are interleaved operations | invariant over all operation lists (Lemmas/Stream*) | **proved**.  |
| C09 | The watcher never reads the dump being written | same | same invariant | **proved**.  |
| C10 | Staged dumps are never lost | same | same invariant; crash-loss witnesses | **partial**. Proved for mirroring modes at every crash point; false with discard_grid_h5 (two witnesses), where the loss is bounded by one chunk. |
| C100 | Vlasov-2D drivers | field.py EMDriverFieldSource, vector_field.py | fold over drivers, derivative of the sine | **proved**.  |
| C101 | Vlasov-2D Hou-Li filter | pushers/vlasov.py HouLiFilter | Parseval per line | **proved**.  |
| C102 | Vlasov-2D moments and equilibria | storage.py moments, modules.py | expansion of squares; induction over steps | **proved**.  |
| C103 | Hermite-Poisson free streaming | vector_field.py FreeStreamingExp1D | functional calculus of the diagonalised matrix; derivative of the exponential; Hermite recurrences of the specification polynomials | **proved**. The eigensolver is any one that meets its contract. |
| C104 | Hermite-Poisson damping | vector_field.py DiagonalExp1D, LinearExp1D; modules.py profiles | exponentials; second derivative at zero for the failure to commute | **partial**. The last clause is false: streaming and damping do not commute, so the linear step is not a flow (linear_not_flow); the knee filter and order zero remove particles (filter_loses). |
| C105 | Hermite-Poisson force substep | vector_field.py _exp_force_substep, _hermite_e_coupling | closed form of the loop by induction; Taylor expansion of Hermite polynomials; linear functionals on polynomials as distributions | **proved**.  |
| C106 | Hermite-Poisson Gauss's law | vector_field.py PoissonSolver1D | identification with the Vlasov-1D spectral solver | **proved**.  |
| C107 | Hermite-Poisson conservation over a run | vector_field.py steps | linear invariants of the Lawson arithmetic; odd kernel for the net force; induction over steps | **proved**.  |
| C108 | Hermite-Poisson equilibrium | vector_field.py steps | every operator fixes a uniform state; induction over steps | **proved**.  |
| C109 | Hermite-Poisson ponderomotive force | vector_field.py pond | case analysis of the difference quotients | **proved**.  |
| C11 | Restarting the converter is idempotent | same | same invariant; witnesses | **partial**. Proved at every kill point without staging; with staging only between scans without spills; two witnesses that it is false otherwise. |
| C110 | Hermite-Poisson options | vector_field.py options | linearity of every operator; unfolding | **partial**. The last clause is false: lawson-rk4 ignores linear response, the density limit and the number of terms (lawson_ignores). |
| C111 | Hermite-Poisson drivers | vector_field.py drivers | exact outgoing solution of the difference equation, superposition, trapezoidal sum | **proved**.  |
| C112 | Hermite-Poisson initial state | modules.py init_state_and_args | inverse transform of single modes | **partial**. False for mode 0 and N (they replace the mean), beyond N (ignored) and at the Nyquist mode (half the amplitude). |
| C113 | Hermite-Poisson sponge | vector_field.py _apply_sponge | inverse transforms | **proved**.  |
| C114 | Hermite-Legendre basis constants | vector_field.py legendre_constants, _legendre_basis_values | Legendre recurrence as polynomials; Sturm-Liouville form for orthogonality | **proved**.  |
| C115 | Hermite-Legendre moments | vector_field.py mixed_moment_matrix | Gaussian and window integrals of polynomials; orthogonality | **proved**.  |
| C116 | Hermite-Legendre linear step | vector_field.py StreamingExp1D, DiagonalCollisionExp1D | derivative of the diagonalised exponential; matrices identified with integrals | **proved**.  |
| C117 | Hermite-Legendre Poisson field | vector_field.py PoissonSolver1D | discrete Fourier transform lemmas of C55 | **proved**. The potential and field agree at every mode but the Nyquist mode of an even grid, where the field is cut. |
| C118 | Hermite-Legendre force terms | vector_field.py force terms and coupling | integration by parts over the window; telescoping of the Hermite derivative | **proved**.  |
| C119 | Hermite-Legendre implicit force solves | vector_field.py cayley updates, _implicit_E_substep | triangular solve by recursion, unitary diagonalisation, Woodbury identity | **proved**.  |
| C12 | Unreadable dumps are isolated | same | same invariant | **proved**.  |
| C120 | Hermite-Legendre split run conserves | vector_field.py _split_step, _conservation_correct | the correction solves the moment equations; induction over steps | **proved**.  |
| C121 | Hermite-Legendre BGK collisions | vector_field.py ConservingBGKCollision1D | recurrence for the Hermite coefficients of a Maxwellian; restoration is zero in exact arithmetic | **proved**.  |
| C122 | Hermite-Legendre Dougherty collisions | vector_field.py DoughertyCollision1D | generating power series for the Ornstein-Uhlenbeck flow; weak form of drift and diffusion | **proved**.  |
| C123 | Hermite-Legendre explicit run conserves | vector_field.py _nonlinear_rhs, Lawson RK4, IMEX substep | linear functionals of the stages; the self-force vanishes | **proved**. For imex the linear system of the Legendre force is assumed solvable where it is used (proved without penalty). |
| C124 | Hermite-Legendre equilibrium | vector_field.py whole step | uniform states are fixed by every sub-map | **proved**.  |
| C125 | Hermite-Legendre options | modules.py init_diffeqsolve checks | case analysis; witness by computation | **partial**. False for BGK with fewer than three Legendre modes: accepted, with a wrong moment map (witness). |
| C126 | Hermite-Legendre initial states | modules.py init_state_and_args, _project_legendre | closed forms of the distribution; positivity and exactness of the quadrature | **partial**. False: two-stream with fewer than three Hermite modes silently is one Maxwellian, and bump-on-tail is not neutral (bump_charge, beam_inside). |
| C127 | Hermite-Legendre saved diagnostics | storage.py get_default_save_func, vector_field.py _coefficient_diagnostics | padding with zero coefficients and C115 | **proved**.  |
| C128 | Hermite-Poisson whole step | vector_field.py _strang_exp_step, _lawson_step, __call__ | exact flows compose; uniqueness of the midpoint field; superposition of outgoing waves | **partial**. The last clause is false for lawson-rk4: step_light shows its light follows the antenna half a step ahead. |
| C129 | Two-fluid particle number | pushers.py DensityStepper, modules.py time loop | the spectral gradient is skew; linear invariants of Runge-Kutta methods | **proved**.  |
| C13 | finalize only reports diagnostics that are fully converted | finalize of the converter | same invariant; witnesses | **partial**. False as stated (two witnesses); proved when the sweep reaches the diagnostic and no close fails. |
| C130 | Two-fluid rest and switches | vector_field.py VF.__call__ | fixed points and linear invariants of Runge-Kutta methods | **proved**.  |
| C131 | Two-fluid field | pushers.py PoissonSolver, VelocityStepper | discrete Fourier transform lemmas of C55 | **proved**. The mean charge is discarded, as in every periodic solver here. |
| C132 | Two-fluid drivers | pushers.py Driver | envelope lemmas of C60 | **proved**.  |
| C133 | Two-fluid linear waves | pushers.py VelocityStepper, EnergyStepper; electrostatic.py table | derivative of the right-hand side at the uniform state; mode-by-mode oscillator; uniqueness for linear ODEs | **proved**. linear_response proves that the linear equations are the derivative of the code's right-hand side. The decay rate is the tabulated one; the frequency is sqrt(wr^2-wi^2), not wr (frequency_shift). |
| C134 | Two-fluid Bohm-Gross | pushers.py EnergyStepper, vector_field.py | as C133 | **partial**. False for masses other than 1: the pressure equation is divided by the mass once too often (mass_matters). Proved for mass 1. |
| C135 | Two-fluid damping and trapping | pushers.py landau_damping_term, ParticleTrapper | Parseval | **proved**. damping_dissipates is for the models with a constant factor (zk, none); with the delta model the local factor is bounded by damping_factor only. zk is the constant 1/2, a placeholder. |
| C136 | Two-fluid translation | vector_field.py VF | equivariance of every operator; symmetry of Runge-Kutta methods | **proved**.  |
| C137 | Two-fluid cells | pushers.py filters | lengths of rfft/irfft | **proved**.  |
| C138 | Electrostatic dispersion function | electrostatic.py dispersion functions | Fubini and differentiation under the integral for the Faddeeva function; identity theorem; positivity of the Penrose integrand | **proved**. scipy's wofz is taken to be the Faddeeva function, which is constructed and shown unique; that newton converges is a hypothesis of roots_damped. |
| C139 | Vlasov-1D2V one-dimensional limit | vector_field.py, pushers | marginalisation commutes with every linear sub-map; induction over steps | **proved**.  |
| C14 | Watcher log lines are rate limited | _log_every counter | induction over the calls | **proved**.  |
| C140 | Vlasov-1D2V perpendicular slices | vector_field.py, pushers, storage.py scalars | shifts and tridiagonal solves keep sums; induction over steps | **proved**.  |
| C141 | Vlasov-1D2V perpendicular grid and initial state | helpers.py | closed form of linspace; ring areas; normalisation | **proved**.  |
| C142 | Vlasov-1D2V cumulative diagnostics | vector_field.py increments | telescoping over steps | **proved**.  |
| C143 | Cylindrical collision operator: conservation | fokker_planck.py CylindricalLandau | telescoping fluxes; Cramer's rule; Cauchy-Schwarz (strict) for the determinant | **proved**.  |
| C144 | Cylindrical collision operator: coefficients | fokker_planck.py _psi, _dhat_*, _tensor | derivatives of erf combinations; monotonicity | **proved**.  |
| C145 | Cylindrical collision operator: sweeps and equilibria | fokker_planck.py sweeps | discrete maximum principle; M-matrix kernel; summation by parts | **proved**. sampled_not_fixed: the grid samples of a Maxwellian whose measured moments differ are moved. The explicit cross terms carry no positivity guarantee. |
| C146 | Vlasov-1D2V options | vector_field.py, fokker_planck.py constructors | case analysis | **proved**.  |
| C147 | Vlasov-1D2V honours its deck | vector_field.py against the 1D solver | witnesses | **partial**. False: the ex_stochastic driver and the Hou-Li filter of the shared deck are silently ignored (witnesses). |
| C148 | Spectrax: moment equations are the Vlasov equation | hermite_fourier_ode.py | weak form against polynomials in the three velocities, from the Hermite recurrences of C103; induction over low moments | **proved**.  |
| C149 | Spectrax: particle number | vector_field.py, exponential_operators.py, integrators.py | linear invariants of Runge-Kutta and Lawson steps; induction over steps | **partial**. Proved for every run when the order of the Hou-Li filter is positive; false for order 0 (order_zero_filter), which is the default of the exponential integrator's copy of the option. |
| C15 | OSIRIS run outcome classification | outcome classification of run_osiris (Model/Runner) | case analysis; sub-list search; witness | **partial**. False as stated when an error line is printed more than 200 lines before the end (witness early_error_missed); proved exactly for the scanned tails, and in full for short outputs. |
| C150 | Spectrax: Gauss's law | vector_field.py; exponential path | linear invariant (explicit); two-point-grid witness (exponential) | **partial**. Proved for every Runge-Kutta method of the explicit path; false for the exponential path (witness): the current enters at the stages of the step, the density is streamed exactly. |
| C151 | Spectrax: divergence of B | vector_field.py, MaxwellExponential | linear invariant, div curl = 0 | **proved**.  |
| C152 | Spectrax: vacuum propagation | MaxwellExponential.apply | derivative of the closed form; vector identities | **proved**.  |
| C153 | Spectrax: linear exponential | exponential_operators.py | spectral theorem for the streaming matrices, commuting flows; witnesses | **partial**. Proved without collisions and inner filter; with either, the product of the exponentials is not a flow (witnesses). |
| C154 | Spectrax: Lawson step | LawsonRK4Solver.step | algebra of the interaction picture | **proved**. lawson_linear assumes the exponential is a flow, see C153. |
| C155 | Spectrax: real fields stay real | vector_field.py and exponentials | conjugation symmetry is a real subspace kept by every operation; induction over steps | **partial**. Proved for odd grids; false for even grids: the unpaired Nyquist wave number makes a real distribution complex (witness). |
| C156 | Spectrax: energy budget | hermite_fourier_ode.py, vector_field.py | Parseval; derivative of quadratic forms | **proved**.  |
| C157 | Spectrax: initial state | base_module.py get_solver_quantities, fft_index | exponential sums; witnesses | **partial**. Proved for an axis mode between 1 and (N-1)/2 with isotropic thermal speed; the other accepted mode numbers violate it (witnesses). |
| C158 | Spectrax: static ions | vector_field.py, exponential_operators.py | fixed components of both steps | **proved**.  |
| C159 | Spectrax: collisions | base_module.py collision matrix, DiagonalExponential | order of real numbers | **proved**.  |
| C16 | Log streaming keeps every line and the newest tail | _stream_log and its bounded tail | induction over the lines | **proved**.  |
| C160 | Spectrax: saved states are solver states | integrators.py step | one-step witness | **partial**. False with a sponge or the outer filter: the saved state precedes the damping (witness). |
| C161 | Spectrax: saved quantities | storage.py | moments of the represented distribution; witnesses | **partial**. Densities, flows and pressures are proved to be the moments; false: temperatures are taken about the basis drift, the total current ignores charges, the stored axis is not the grid (witnesses). |
| C162 | Spectrax: time grid and defaults | base_module.py | floor arithmetic | **partial**. Times proved; false: `adaptive_time_step` and the filter options have different defaults in different parts (witnesses). |
| C163 | Spectrax: driver | driver.py | envelope lemmas of C60, transform of a real row | **partial**. Proved for Ny = Nz = 1; with more points the driven field is set on every ky, kz, i.e. concentrated on one line. |
| C164 | Envelope solver: wave energy | SpectralEPWSolver.__call__, get_default_save_func | Parseval; the longitudinal projection does not increase the energy; induction over steps | **proved**.  |
| C165 | Envelope solver: plasma waves are exact | SpectralEPWSolver.__call__, calc_landau_damping_rate | closed form of a step; induction over steps | **proved**.  |
| C166 | Envelope solver: potential and field | phi_k_to_e_fields, e_fields_to_phi_k | inverse transforms | **proved**.  |
| C167 | Envelope solver: two-plasmon decay | calc_tpd_source | transform of a product with a plane wave; algebra | **proved**.  |
| C168 | Envelope solver: dealiasing | get_solver_quantities filter, _pump_k_support | integer mode arithmetic; witnesses | **partial**. Proved along x for a pump without speckle; the default isotropic filter aliases and the transverse support of a speckle is too small (witnesses). |
| C169 | Envelope solver: pump | laser_update, SplitStep | inverse transform of a sparse spectrum, Parseval; witness | **partial**. Mean intensity proved for colours on different grid modes; colours that snap to the same mode interfere (witness). |
| C17 | Final sync never overwrites durable files | _sync_tree on file dictionaries | induction over the tree | **proved**.  |
| C170 | Envelope solver: laser spectra | modules/driver.py | real analysis; infix search; witnesses | **partial**. Spectra proved; false: the trainable shape cannot pump, only it can be saved, one colour is off-centre, the reader is chosen by any part of the path (witnesses). |
| C171 | Envelope solver: options take effect | SpectralEPWSolver.__init__, SplitStep | equality of configured solvers; witnesses | **partial**. Three switches take effect (by the model of the step); landau, zero_mask, linear, srs and hyperviscosity do not, a run without E0 or with E2 fails. |
| C172 | Envelope solver: density profiles | get_density_profile | derivative; broadcasting witnesses | **partial**. Linear profile proved; uniform is critical density, tanh and sine vary along the wrong axis or fail, exponential fails. |
| C173 | Envelope solver: filter and boundaries | get_solver_quantities | order of real numbers, tanh bounds | **proved**.  |
| C174 | Envelope solver: saved quantities | make_field_xarrays, get_save_quantities | Parseval; witnesses | **partial**. Series proved; stored fields are scaled by 4/(nx ny), stored axes and spectra are wrong for another dx, 64-bit runs cannot be written (witnesses). |
| C175 | Speckle: power and periodicity | generate_speckle_pattern, beamlets_complex_amplitude | discrete Plancherel twice | **proved**.  |
| C176 | Speckle: time series | _init_gaussian_time_series, gen_gaussian_time_series, __init__ | floor and ceiling arithmetic; case analysis; discrete Fourier transform of rolled arrays | **partial**. False: with an odd number of samples the spectrum is displaced by one bin, the width parameter is the half width and not the documented full width, the stored SSD phase is smaller than the requested rms, the documented messages of two checks are never shown; the rest is proved. |
| C177 | Speckle: intensity of the pump | Light.__init__, laser_update | variance identity; two-beamlet witness | **partial**. False: the mean amplitude, not the mean intensity, is normalised; the mean intensity is always at least the configured one, equal only without speckle. |
| C178 | Envelope solver: superposition and translation | SpectralEPWSolver.__call__ | real-linearity and shift theorem of every operation; induction over steps | **proved**.  |
| C179 | Envelope solver: quiet start | init_state_and_args, SplitStep | induction over steps | **proved**. A consequence: the density.noise section of the deck has no effect. |
| C18 | OSIRIS binary discovery precedence | find_binary | case analysis | **proved**.  |
| C180 | Envelope solver: units | write_units | algebra; case analysis | **partial**. Units proved; two different Coulomb logarithms, and integer or borderline collisions values fail (witnesses). |
| C181 | Spectrax: sponge and density noise | base_module.py sponge, integrators.py damping, vector_field.py noise | pointwise transforms, Parseval | **proved**.  |
| C182 | Self-consistent temperature is well defined | discrete_temperature, residual | symmetrised double sums; limits of exponential averages, intermediate values | **proved**.  |
| C183 | Newton refinement of the temperature | _find_self_consistent_beta_single | covariance is positive; convex functions; four-cell witness | **partial**. False: the default three iterations can end far from the root without an error (witness). Proved: the iteration is defined everywhere, rests exactly at the root, and from a guess on the convex side it stays between guess and root. |
| C184 | Analytic temperatures of super-Gaussians | analytic_supergaussian_temperature_ratio, compute_D | Gamma integrals | **proved**.  |
| C185 | Super-Gaussian collisions conserve energy | SuperGaussianDougherty | summation by parts; monotonicity of w/(e^w-1) | **partial**. Energy identity proved for every grid and distribution; uniqueness for distributions without mean flow and away from the truncated series of the weight. |
| C186 | VFP-1D initial distribution has the configured density and temperature | _initialize_distribution_, saved moments | Gamma integrals by substitution; midpoint rule converges (uniform continuity); dominated tails | **proved**.  |
| C187 | VFP-1D profiles from files | _read_two_column_file, load_profile_on_grid | parse-after-render by induction over lines and cells; sorted permutations are unique; induction over the interpolation nodes | **proved**. numpy.genfromtxt is modelled (comments, blank lines, rectangularity, squeezing); float() on a token is a parameter. |
| C188 | VFP-1D profiles and species sections | _initialize_total_distribution_ | case analysis, bounds of tanh, sin, cos | **proved**.  |
| C189 | VFP-1D saved quantities | get_field_save_func, get_default_save_func, get_unit, get_save_quantities | linearity of sums; case analysis | **partial**. False for the density column labelled cm-3, whose factor 9.09e21 ignores the laser wavelength (label_n_iff); the quantity saved as v is the flux n u (saved_flow); the rest is proved. |
| C19 | Dump series are grouped and ordered by iteration | file-name regexes and grouping (Model/Io) | induction; sortedness | **proved**.  |
| C190 | Vlasov-1D initial distribution has the configured density, drift and temperature | _initialize_supergaussian_distribution_ | normalisation of sums, reflection of the grid; Gamma integrals, midpoint rule, tails | **partial**. Density, positivity and drift proved. False: T0 fixes the ratio of the fourth to the second moment, so the variance is T0/mass only for m = 2 (half of it for m = 1), and with one cell the density profile is ignored (witnesses). |
| C191 | Vlasov-1D species set and initial charge | species_set_from_config, sim_from_config, _initialize_total_distribution_ | induction over the species list; case analysis | **partial**. False: a single species is neutral only with charge -1, the quasineutrality option has no effect, of two species with one name only the last is simulated and without background (witnesses). |
| C192 | Vlasov-1D density options and state entries | SubspeciesDensityProfile, init_state_and_args | case analysis; dictionary lemmas | **partial**. False: the uniform basis ignores its space profile, and a species named like a field (e) is overwritten (witnesses). |
| C193 | Vlasov-1D saved moments and scalars | get_field_save_func, get_default_save_func | linearity of sums, sums of squares, telescoping | **proved**.  |
| C194 | Vlasov-1D saved samples of the distribution | get_dist_save_func, _add_dim_axes | counting of grid points below the query; convex combinations | **partial**. False: samples in the outer half cell of the velocity range have no value (NaN), among them the first and last velocity of a save over the whole range, as in the documentation; the rest is proved. |
| C195 | Vlasov-1D save section | get_save_quantities, get_dist_save_func, storing | induction over the save section with the state of the fields entry; injectivity of names | **partial**. False: two saves of the fields are accepted only with `fields` last, streams collide if a species name has a dot, species named field... or default... are stored as something else, a deck without a diagnostics section fails (witnesses). |
| C196 | Ion-acoustic charge spectrum | iaw.py | inverse transform of a three-line spectrum; Parseval with conjugate symmetry | **partial**. False: a narrow window can be empty, and the default screening length is the solver's only for mean charge 1 (witnesses). |
| C197 | OSIRIS image decimation | _boxcar_downsample, _render_cells | arithmetic of integer division; sums over blocks | **proved**.  |
| C198 | OSIRIS time slices of evolution plots | _evolution_t_indices, plot_lineouts | arithmetic of integer division; sorted lists | **partial**. The evolution panels are proved; line-outs can miss the last dump (witness). |
| C199 | OSIRIS cropping to the simulation box | _crop_spatial_to_box, _sim_box_bound | induction over the axis | **partial**. False when no cell centre lies in the box: a cell outside is kept, or none (witness). |
| C20 | Time-index selection follows Python indexing | index normalisation | integer arithmetic | **proved**.  |
| C200 | OSIRIS (k, omega) spectrum | plot_omega_k, _omega_k_zoom_window | character sums over ZMod; arithmetic of fftshift and of the reversal | **partial**. Proved for odd numbers of cells and for non-negative frequencies. False: with an even number of cells the negative-frequency half is displaced by one wave number (witness for every even grid). |
| C201 | OSIRIS density and temperature profiles | _density_series, _temperature_from_phasespace | sums of squares; cases on the sign | **partial**. False for the density of multiply charged ions, which is drawn Z times too large (witness), and for the temperature of phase spaces with an autoscaled momentum axis, which uses the axis of the first dump (witness). |
| C202 | OSIRIS left- and right-going fields | efield_lr_components, transverse_field_boundary_slabs | algebra; derivatives along characteristics; list slices | **proved**.  |
| C203 | OSIRIS field energy | field_energy_components, _field_energy_from_series | induction over the dumps | **partial**. False when components have different dump cadences: the total drops where only some were dumped (witness). |
| C204 | OSIRIS derived quantities | get_derived_quantities, _infer_dim, _first_array_value | induction over sections and lists; floor arithmetic | **partial**. False: the number of steps ignores the start time, and a deck that gives nx_p one entry at a time is read as one-dimensional (witnesses); the rest is proved. |
| C205 | OSIRIS recorded units | write_units | dimension algebra over the reals; field arithmetic | **proved**.  |
| C206 | OSIRIS ion-acoustic speeds | ion_acoustic_speeds | induction over the sections | **proved**.  |
| C207 | OSIRIS final field energy | _total_field_energy, _is_field_component_dir, _resolve_fld_diag | induction over dumps; sorted permutations; code point order | **partial**. False: a component dumped both in full and averaged is counted twice, and averaged dumps use the cell volume of the full grid (witnesses); the rest is proved. |
| C208 | OSIRIS plot regeneration | regen.py, canned_plot_kwargs | case analysis over options and layouts | **partial**. False: a configuration that is readable but no mapping stops the regeneration, and a run without configuration takes that of the directory above (witnesses). |
| C209 | VFP-2D vector potential | _vector_potential | two-dimensional Fourier transform, injectivity, algebra per mode | **partial**. False for fields with content on a Nyquist line of an even grid: the potential of a zigzag field is zero (witness). |
| C21 | Gradient scale length rewriting | apply_gradient_scale_length over an ordered field (Model/Density) | field arithmetic, real logarithm of the ramp | **proved**. Exact arithmetic. scale_length_exact needs at least 4 fx values when min/max are imposed (with 3, both ends of the ramp are one point); the error of round(., 10) is bounded by scale_length_rounded. |
| C210 | VFP-2D reconnection diagnostics | add_reconnection_diagnostics | argmax induction, finite sums and folds, involution of the window, exact finite differences of quadratics | **partial**. False: on a box without the origin the quadrupole is not centred at the X-point, a uniform field has purity one; a run without inflow has valid normalisations and no rate; runs with one cell along a direction raise in post-processing. |
| C211 | VFP-2D panels, colour scales and metrics | _selected_indices, save_xy_facet, reconnection_metrics | rounding bounds, list folds | **partial**. False for one panel: it shows the initial state, never the last. |
| C212 | VFP-2D profiles | _profile_1d, _profile_2d | case analysis over profiles, exponential algebra | **partial**. False: an unknown axis is taken as x and a profile without basis is uniform, where VFP-1D refuses it. |
| C213 | VFP-2D initial distribution and save times | init_state_and_args, init_diffeqsolve | induction over the deck, finite sums, divisibility | **partial**. False: the exponent of a super-Gaussian species is ignored in relativistic runs, and with more than a hundred steps, not a multiple of a hundred, default save times fall between steps. |
| C214 | Wave frequency from the saved phase | _compute_epw_frequency, _compute_em_frequency | uniqueness of the angle within half a turn, induction over samples, telescoping sums | **partial**. False for waves saved less than twice per period (aliased) and for standing waves, whose mean reported frequency tends to zero. |
| C215 | Damping rate of the first mode | _compute_damping_rate | normal equations over lists, logarithms | **proved**. np.polyfit is modelled by the closed form of the least-squares slope, proved optimal. |
| C216 | Light-wave metrics, energy windows and mode plots | EPW1D/Maxwell1D.post_process, plotting windows | list and finite-set averages, counting of sign changes, integer arithmetic | **partial**. False: the documented window is the latter 75%, the code uses the last 20%; with fewer than eleven cells mode curves carry wrong labels; the facet plot does not show the uniform transverse mode. |
| C217 | Saved times drawn in lineout figures | lineout slices of all solvers | integer division bounds | **partial**. False: slice(0, -1, skip) never draws the last saved time and draws nothing for a single one. |
| C218 | Moving phase-space axes | load_series, physical_axis, _series_da_from_dataset, stream.py | case analysis on moving bounds, linear estimates | **proved**. Closeness is np.allclose with default tolerances. |
| C219 | Particles of RAW dumps | load_raw_series | induction over dumps | **proved**. HDF5 reading and xr.concat are modelled by their results. |
| C22 | Time grid covers the requested time and respects the CFL limit | Grid of Vlasov-1D/PIC (Model/Grid) | floor lemmas | **proved**. Exact arithmetic. time_axis_spacing shows that the stored time axis is not spaced by dt. |
| C220 | Energy histories | load_hist_energy, _parse_hist_table, _interp_onto | fold invariants over files, list induction over text | **partial**. False for a table whose last line is cut: every row loses the missing columns, so that particle counts are reported as energies (witness). Python's float is a parameter. |
| C221 | Best-effort standard figures | save_canned_plots | blocks with handlers, induction over blocks, classification of blocks | **partial**. False: fields, moments and final phase spaces are drawn outside every handler; a field dumped once ends the function and no other family is drawn (witness). Whether a figure can be drawn is a parameter. |
| C222 | Data shown in profiles and phase-space figures | plot_profile, _density_series, _temperature_series, _nonzero_log_clim | integer rounding, list induction, folds | **partial**. False for the temperature, which is three times larger from thermal velocities than from the phase space of an isotropic plasma, and for the density, for which any DENSITY entry is taken if none of the known ones is there (witnesses). |
| C223 | Labels | _tex, _label_tex | list induction on text | **partial**. Proved for labels without dollars of their own; false for labels with some inside, and fractions differ between units and labels (witnesses). |
| C224 | Vlasov-1D on several devices | grid.parallel of Vlasov-1D | blocks of ZMod n joined, step by step equality with the serial operators, induction over steps | **proved**. Exact arithmetic; shard_map is modelled by its documented partition into equal blocks. grid.parallel is accepted but has no effect in Vlasov-1D2V and Vlasov-2D. |
| C225 | Complete Vlasov-1D runs | VlasovPoissonFokkerPlanck.__call__ | per-operator conservation theorems composed over steps by induction | **proved**. Tridiagonal solves and root finding are relations; existence is proved for the Chang-Cooper types. |
| C226 | Symmetries of Vlasov-1D runs | VlasovPoissonFokkerPlanck.__call__ | covariance of every operator under a map of species and fields, composed through the integrators and the steps | **proved**. Translations for both velocity pushers, the mirror image for the exponential push. The drive of the moved box is the moved drive. Kept symmetries are stated for collisions with one result (Chang-Cooper without iteration, Krook, none). |
| C227 | Saved distributions of Vlasov-1D2V and Vlasov-2D | get_dist_save_func_2v; get_dist_save_func, _add_dim_axes of Vlasov-2D | bilinear surface of the located cell, inside and outside; set equality of label keys | **partial**. Proved between the first and the last cell centre; false at the edges: Vlasov-1D2V continues the first cell linearly, so a save axis that spans the grid can start with negative values, and Vlasov-2D saves zero there (witnesses). |
| C228 | Symmetries of Vlasov-2D runs | VlasovMaxwell.__call__ of Vlasov-2D | covariance of every operator under a map of species and fields, composed through the substeps and steps; longitudinal states are the fixed points of a shift and the mirror | **proved**. Interpolation and tridiagonal solver are external: the mirror image assumes that they have no preferred direction; both assumptions can be met. |
| C229 | What a particle run depends on, and its symmetries | PIC1DVectorField.__call__ with pushers | the step moves markers along paths decided by integrals over the charge in phase space; covariance of gather, deposit, Poisson solver and wrap, composed over the step and induction over steps | **proved**. Exact arithmetic: in floating point the order of markers changes the rounding of sums. Translations without light waves, whose ends are open. |
| C23 | MLflow parameter logging is complete | log_params batching (Model/Utils) | list slicing; witness with 101 parameters | **partial**. False as stated: above 100 parameters the number of batches is n % 100 (witness with 101). The exact set logged is characterised for every n. |
| C230 | What a collisionless Vlasov-1D run depends on | VlasovPoissonFokkerPlanck.__call__ | relations between species lists that fix charge and current and that no operator breaks, composed through the integrators and induction over steps; linearity of every operator in the distribution | **proved**. Without collisions, whose operators are not linear. The multi-species Ampere field; the spectral Hampere solver takes one species. False for the cubic-spline push, which adds 1e-30 for every species (spline_parts_fail). |
| C231 | Which Vlasov-1D decks are accepted, and that they run with the accepted values | Vlasov1DConfig; set-up and first step and save of Vlasov-1D | acceptance and set-up as functions into errors, each characterized by a list of conditions; equality of the values both readings give | **partial**. Acceptance and set-up are characterized for every deck. Agreement is proved for switches given as truth values or 0 and 1; it fails for words such as off and for the defaults of diagnostics and of the Hou-Li filter, because the run reads the dictionary and not the validated configuration (witnesses). |
| C232 | Which Vlasov-2D decks are accepted, and that they run with the accepted values | Vlasov2DConfig; set-up of Vlasov-2D | acceptance and set-up as functions into errors, each characterized by a list of conditions; equality of the values both readings give | **partial**. Acceptance and set-up are characterized for every deck, and collisions, push and drivers agree for every spelling. The switches of Maxwell's equations and of the filter agree if they are truth values or 0 and 1; given as words they are on whatever the word says, and decks that rely on defaults are accepted and end with KeyError (witnesses). |
| C233 | Which accepted decks Vlasov-1D2V starts, and what of them the run has | set-up, first step and save of Vlasov-1D2V | set-up as a function into errors, characterized by a list of conditions; equality of the values of both readings of a deck | **partial**. Set-up is characterized for every deck. Collisions and diagnostics agree for plain switches; false for the filter, which is accepted and not there, for the Krook operator switched off by a word, which is refused, and for a run of ions alone, which ends with KeyError although its collisions are off (witnesses). |
| C234 | Which PIC-1D decks start, and that they start neutral if they say so | PIC1DConfig, sim_from_config, BasePIC1D.get_solver_quantities | acceptance and set-up as functions into errors, each characterized; sum over species by induction on the list | **partial**. Acceptance, species and start are characterized for every deck, and neutrality is proved for every set of species of different names when quasineutrality is given as a truth value; false for the word off, which keeps the background, and for two species of one name, of which the first is not loaded and the background counts the second twice (witnesses). A deck that relies on the default of the integrator ends with KeyError. |
| C235 | Which two-fluid decks are accepted, and that they run as accepted | ConfigModel of the two-fluid solver; its set-up and first step | acceptance, set-up and first step as functions into errors, each characterized; equality of the values of both readings | **partial**. Acceptance and the first step are characterized for every deck. Agreement is proved for switches given as truth values or 0 and 1; it fails for words such as off, because the run reads the dictionary (witnesses). Accepted decks with trapping end with KeyError under the arguments of the solver itself, and those with a word as gamma or an empty wave-number axis end with TypeError (witnesses). |
| C24 | Configuration flattening preserves every leaf | flatten_dict | mutual induction over nested dictionaries; witnesses | **partial**. False as stated for keys containing a dot or empty keys (witnesses); exact otherwise. |
| C25 | Gradient reduction averages and clips | all_reduce_gradients (Model/Grad) | field arithmetic; witness | **partial**. False for a single run (UnboundLocalError, witness); exact for two or more. |
| C26 | Artifact upload retry | robust_log_artifacts | induction over attempts | **proved**.  |
| C27 | Simulation lifecycle order | ergoExo state machine on a heap (Model/Lifecycle) | invariants over all call lists; witness | **partial**. False as stated when a later setup fails half-way (witness): the ready flag stays set. Everything else holds for all histories. |
| C28 | Solver dispatch | solver dispatch table | case analysis | **proved**.  |
| C29 | Unit normalisation | normalize, skin_depth / electron_debye normalisation (Model/Norm) | field arithmetic | **proved**. Exact arithmetic; unit parsing is pint's (external). |
| C30 | Scalars filter | filter_scalars | induction | **proved**.  |
| C31 | Fokker-Planck step conserves density | drift-diffusion tridiagonal operators (Model/FokkerPlanck) | column sums of the matrix | **proved**. Exact arithmetic; the tridiagonal solver is any solution of its system. (The CentralDifferencing docstring says the scheme does not conserve density; it does.) |
| C32 | Chang-Cooper step preserves positivity | same | M-matrix argument: minimum cell | **proved**. central_* concern the other scheme, which keeps positivity only for cell Peclet numbers up to 2 (witness above). |
| C33 | Chang-Cooper keeps the discrete Maxwellian | same | zero flux recursion, uniqueness; Taylor-branch error bound | **partial**. Exact characterisation of the fixed points when no cell Peclet number lies strictly between 0 and 1e-8 in size; there the code evaluates a truncated series and the step moves the state by at most 6e-16 dt nu D/dv^2 of its density (chang_cooper_almost_fixed). |
| C34 | Krook operator | Krook operator | exact solution | **proved**.  |
| C35 | Collisions act only on the reference species | species loop of the collision step | induction over species | **proved**.  |
| C36 | Vlasov advection conserves particles | spectral shifts as ZMod.dft multipliers (Model/Spectral) | DFT inversion; witness at Nyquist | **partial**. Conservation and identity proved; successive shifts add only without the grid-scale (Nyquist) oscillation, and shift_add_fails shows that restriction is needed. Odd grid lengths are changed by the code (round_trip_length). |
| C37 | Self-consistent field has zero mean and exerts no net force | Poisson solver, same | DFT, antisymmetry | **proved**. Every resolved wave; the Nyquist component of the field is zero. |
| C38 | Time-splitting integrators are consistent and symmetric | leapfrog / sixth-order integrators (Model/Integrator); PIC integrators (Model/Pic) | composition of shifts; rational arithmetic of the coefficients | **partial**. Drifts add up to dt and the sixth-order step is exactly reversible; its kicks add up to less than dt (sixth_kick_short), so that part of the claim is false of the code. The particle integrators satisfy the claim in full. |
| C39 | PIC deposition conserves charge | particle shapes, deposition, gather (Model/Pic) | partition of unity over ZMod | **proved**.  |
| C40 | PIC self-force vanishes | same | adjointness of deposit and gather | **proved**. Uniform or no static background; with a non-uniform background or a driver, kick_momentum gives the exact force balance. |
| C41 | PIC particles stay in the box | drift with periodic wrap | floor arithmetic | **proved**.  |
| C42 | VFP-1D transport is conservative | VFP-1D spatial operators (Model/Vfp) | telescoping sums; linearity of every explicit Runge-Kutta method | **proved**. Planar and spherical; every explicit Runge-Kutta method. |
| C43 | VFP-1D mixture is quasineutral | ion mixture | field arithmetic | **proved**.  |
| C44 | Envelope bounds | EnvelopeFunction / get_envelope (Model/Driver) | monotonicity of tanh; witnesses | **partial**. Range 0..1, symmetry, peak and decay proved for equal positive rises. False in general: a negative rise or two different rises make the envelope leave 0..1 (envelope_negative_rise, getEnvelope_negative are proved counterexamples). |
| C45 | A staged OSIRIS run hands everything over | staged run_osiris hand-over | trace of the run; witness | **partial**. False when the final sync fails: scratch is removed all the same (witness). Proved for an uninterrupted sync; durable files survive always. |
| C46 | OSIRIS command line | command line construction | list arithmetic | **proved**.  |
| C47 | list_diagnostics is complete and unambiguous | list_diagnostics | induction over the tree; witness | **partial**. False when a sub-directory is named like a report series (witness); proved for trees without such a clash. |
| C48 | load_series selection | load_series | list selection | **proved**.  |
| C49 | Saving datasets is isolated per diagnostic | save_run_datasets | fold with exceptions as values | **proved**.  |
| C50 | Final iteration and HIST tables | final iteration / HIST tables | list lemmas | **proved**.  |
| C51 | MLflow run ids survive JIT-compiled code | run id byte arrays (Model/MlLog) | byte round trip | **proved**.  |
| C52 | Logging modules | MlflowLoggingModule | case analysis | **proved**.  |
| C53 | Normalisations fit together | normalisation factories | field arithmetic with sqrt | **proved**.  |
| C54 | Every solver runs at least to the requested time | time grids of all solvers (Model/Grid) | floor lemmas; witness | **partial**. False for Hermite-Legendre, which rounds (witness); proved for all the others. |
| C55 | FFT-friendly grid size | next_smooth_fft_size (Model/Fft) | invariant of the loop, minimality of the generated sequence | **proved**.  |
| C56 | Momentum and energy budget of the Dougherty operator | Dougherty operator | summation by parts | **partial**. Exact budgets; exact energy conservation, as documented, does not hold. |
| C57 | Drag-free operator | drag-free operator | summation by parts; explicit non-fixed point | **partial**. Density conservation proved; the documented fixed point is refuted for every Maxwellian on three or more cells. |
| C58 | Vlasov-1D fields obey Gauss's law for ever | Vlasov-1D Ampere/Poisson field history | induction over steps | **proved**.  |
| C59 | The Hou-Li filter only damps | Hou-Li filter | multiplier bounds, Parseval | **proved**.  |
| C60 | A Vlasov step keeps every species | species list through the step | induction | **proved**.  |
| C61 | Ponderomotive push of a light wave | ponderomotive push | DFT | **proved**.  |
| C62 | The laser solver is a wave equation with open ends | WaveSolver (Model/Wave) | finite-difference algebra | **proved**.  |
| C63 | A complete particle run keeps its particles and its diagnostics agree with its state | complete PIC step and its diagnostics | induction over steps | **proved**. no_electron_vacuum documents that a run whose species is not literally named electron has no plasma response on the wave. |
| C64 | External drivers are superpositions of the configured pulses | EMDriver, driver sums | finite sums; exact condition; witness | **partial**. Superposition, order independence, waveform and bound proved. The configuration clause is false: giving only one of the two alternatives crashes (resolveAKW_one_fails is the proved counterexample, resolveAKW_iff the exact condition). |
| C65 | The stochastic driver covers the run, is stationary and periodic | StochasticDriver | measure-theoretic moments, floor lemmas | **proved**. Random draws enter as square-integrable variables with the moments of independent standard normals; no statement about the generator itself. |
| C66 | The particle loader represents the configured density | quiet and random loaders (Model/PicLoad) | interpolation lemmas; witnesses | **partial**. Every configured sub-population represented is false: rounding can leave the last one without particles, crash or silently truncate (counts_last_fails, counts_last_starved, load_truncated). Total weight equal to the density integral proved for flat profiles in the quiet load and for the random load. |
| C67 | The cubic-spline push shifts the distribution | cubic-spline push (Model/CubicSpline) | polynomial identities; witness | **partial**. All clauses proved except non-negativity, which is false: shiftRow_negative is the counterexample. |
| C68 | VFP-1D field push conserves electrons and does the right work | VFP-1D velocity operators | summation by parts | **proved**. Exact budgets; the top-of-grid terms are explicit. |
| C69 | A VFP-1D time step is closed and keeps equilibria | VFP-1D step | composition; exact failure condition | **partial**. Every clause proved except that every advertised solver works: edfdv-ampere-implicit fails on every grid of more than one cell (step_solvers). |
| C70 | The implicit electric field cancels the current | implicit field | secant algebra for affine currents | **partial**. Proved when the current is an affine function of the field, which holds for one-stage methods and linear collisions; the code uses a multi-stage method, for which the field is the root of a secant line. |
| C71 | The VFP-1D initial state is physical | VFP-1D initial state and flux limiter | algebra; witnesses | **partial**. False in general: flux limit applied before the density scaling (limited_negative), periodic copies limited by different cells (limited_copies), anisotropy added once per species (initial_doubles). |
| C72 | Isotropic collisions keep the density and stay non-negative | VFP-1D f0 collisions (Model/VfpCollisions) | column sums, M-matrix | **proved**. The tridiagonal solve is any solution of its system. |
| C73 | Kernel collisions conserve energy | kernel models | symmetric double sum | **partial**. Proved for the log-mean scheme on distributions above its floors; false for the default central scheme, which loses energy on every decreasing distribution (central_loses_energy). |
| C74 | The equilibria of the isotropic collisions are the Maxwellians | equilibria | strict positivity of the log-mean double sum; witness | **partial**. Proved for log-mean and Chang-Cooper differences above their floors; false for the default central scheme (central_moves_maxwellian). |
| C75 | Laser heating heats, at the configured resonance | inverse bremsstrahlung | diffusion monotonicity | **partial**. The resonance factor uses the charge relative to the reference charge: the rates agree exactly when the reference charge is one (ib_ratio_agrees). Heating clause proved without collisions, central and Chang-Cooper. |
| C76 | Anisotropic collisions damp the harmonics | anisotropic collisions | diagonal dominance | **proved**. The explicit off-diagonal electron-electron contribution is a parameter. |
| C77 | The Coulomb logarithm is sane | Coulomb logarithm | case analysis | **proved**.  |
| C78 | The reduced heat fluxes are physical | heat_flux.py: edges, local coefficients, groups, tridiagonal systems, both fluxes | telescoping sums for conservation, maximum principle for the group systems, derivative of the weight function | **proved**. Every physical plasma, planar and spherical; solve_banded is the relation of an exact solve. |
| C79 | VFP-2D harmonic layout | harmonics.py: HarmonicLayout | pair list without duplicates; index by idxOf; closed form of the size by induction | **proved**.  |
| C80 | VFP-2D free streaming moves particles and nothing else | harmonics.py: streaming with the three derivative schemes | skew-Hermitian derivatives, and a pairing of the couplings (l,m)-(l+1,m') with the spherical-harmonic weights | **proved**. Exact arithmetic; spectral and both central derivatives. |
| C81 | VFP-2D magnetic rotation | harmonics.py: magnetic | telescoping exchange between m and m+1; f1 as a vector compared with a cross product | **partial**. The rotation is the Lorentz one for Bx only: By and Bz turn the flux the wrong way (magnetic_flux, magnetic_lorentz_iff with a witness). |
| C82 | VFP-2D electric acceleration | harmonics.py: electric, gh, ddv | summation by parts with the parity rule at v = 0 | **proved**. Exact budgets, boundary and spacing terms explicit. |
| C83 | VFP-2D Maxwell mode keeps the laws of electromagnetism | vector_field.py: Maxwell2D, SpectralPoisson2D, VlasovMaxwell, SplitStepVFP2D; base.py initial state | commuting derivatives, discrete continuity, linear algebra of the midpoint step; Parseval-type arguments for the Poisson solve | **partial**. Gauss's law is kept for odd ny or difference derivatives; with the Fourier derivative on an even ny the z flux at the Nyquist wave leaks into the density (leak_even). poisson_gauss asks that the charge has no Nyquist wave. |
| C84 | VFP-2D positivity limiter and current projection | harmonics.py positivity, ohm.py projection, real storage | case analysis on the scale; linearity of the current in f1 | **proved**. tiny is any positive number. |
| C85 | VFP-2D kinetic Ohm law | ohm.py: KineticOhm2D, harmonics.py moments | moments of the streaming and magnetic operators compared with the terms of the law | **partial**. The magnetic terms balance the kinetic magnetic operator only with By and Bz reversed (see C81); the pressure terms are exact for the non-relativistic streaming speed. |
| C86 | VFP-2D kinetic-Ohm step | vector_field.py: KineticOhmStep | rewriting the step as a generic constrained RK4 (separate specification), then invariants of its stages | **proved**. The RK4 scheme is a separate specification whose order is checked on polynomials and the linear equation. |
| C87 | VFP-2D heating switches and collision adapter | vector_field.py gates, collisions.py | case analysis; strict monotonicity of tanh from sinh addition | **proved**. The collision operators are parameters. |
| C88 | VFP-2D filters and arrays divided among devices | harmonics.py filters and halo exchange, distributed.py | Fourier multipliers; index arithmetic modulo the number of cells | **partial**. Results depend on the number of devices when blocks are short (partition_dependent): below 2 cells per device the derivative and below 4 the filter change order; independence is proved above that. |
| C89 | VFP-2D run set-up | base.py: nt, tmax, field mode | ceiling | **proved**.  |
| C90 | Vlasov-2D particle number | pushers/vlasov.py, vector_field.py kinetic substep | conservation of spectral shifts, induction over steps; four-cell witnesses for the losses | **partial**. False with a magnetic field (rotation_loses) and for the semi-Lagrangian acceleration (sl_loses). |
| C91 | Vlasov-2D characteristics | pushers/vlasov.py rotation and semi-Lagrangian pushes | uniqueness of linear ODE solutions via derivatives of rotated velocities | **proved**. The interpolation is a parameter. |
| C92 | Vlasov-2D free streaming and reversibility | pushers/vlasov.py | Fourier modes of shifts; composition of shifts | **partial**. Reversibility for odd grids without magnetic field. |
| C93 | Vlasov-2D Maxwell step | pushers/field.py MaxwellSpectral | adjointness of the spectral curl, commuting derivatives | **proved**.  |
| C94 | Vlasov-2D Maxwell stability | pushers/field.py, grid.py cap | shadow energy, bounds on the Fourier derivative, two-term recurrence for a standing wave | **partial**. The time step the grid imposes is above the stability limit (capped_step_unstable). |
| C95 | Vlasov-2D Gauss's law | vector_field.py VlasovMaxwell step | maxwell_div applied to the step; two-beam witness moved by whole cells | **partial**. The conservation a user expects is false; the exact change and a witness are proved. |
| C96 | Vlasov-2D collisions | pushers/fokker_planck.py | identification with the 1D central operator and its budgets | **partial**. Energy is not exactly conserved as documented (column_energy); Krook's temperature ignores the species (krook_wrong_temperature). |
| C97 | Vlasov-2D initial density | helpers.py | finite sums of normalised factors | **partial**. False for pieces divided over velocity devices (shards_wrong). |
| C98 | Vlasov-2D initial fields | modules.py init_state_and_args | initial density and the Poisson theorem | **proved**.  |
| C99 | Vlasov-2D distribution sharding options | distributed.py, helpers.py checks | case analysis | **proved**. Negative mesh shapes with the right product pass this validation. |

## What is modelled, module by module

| model file | code | not modelled |
|---|---|---|
| Model/Deck | adept/osiris/deck.py | Unicode digits, CPython's 4300-digit limit, error text; floats are abstract (`FloatIO`) |
| Model/Density | adept/osiris/density.py | float rounding except as the parameter `rnd` |
| Model/Stream | adept/osiris/stream.py, one diagnostic | the shape-mismatch reopen path; two threads racing after `thread.join` times out in finalize; torn batches (a batch lands atomically); file names whose iteration cannot be parsed or differs from the `iter` attribute; directory pruning, statistics |
| Model/Runner | adept/osiris/runner.py | subprocess and clock are inputs; empty directories |
| Model/Io | adept/osiris/io.py, the scans of post.py | HDF5/NetCDF contents; plots |
| Model/Utils, Grad, MlLog | adept/utils.py, adept/mlflow_logging.py | MLflow itself, `vmap` |
| Model/Lifecycle | adept/_base_.py | timing metrics, units.yaml |
| Model/Norm | adept/normalization.py | pint's parser, Coulomb logarithms there |
| Model/Grid, Fft | space and time grids of the solvers; next_smooth_fft_size | printed warnings |
| Model/FokkerPlanck | adept/driftdiffusion.py, _vlasov1d fokker_planck.py | the Newton iteration for `beta` |
| Model/Spectral, Integrator, CubicSpline, Wave, Driver | _vlasov1d pushers, fields, integrators, drivers, adept/functions.py | device sharding; diagnostics other than those named |
| Model/Pic, PicLoad | adept/_pic1d | random generators, plots |
| Model/Vfp, VfpCollisions | adept/vfp1d | diffrax adaptivity; storage and plots |
| Model/HeatFlux.lean | adept/vfp1d/heat_flux.py (transport coefficients, Spitzer-Härm and SNB fluxes), adept/vfp1d/storage.py (calc_EH) |
| Model/Vfp2d.lean | adept/vfp2d/harmonics.py (layout, Vlasov operator, moments, positivity), vfp2d/grid.py checks, ohm.py projection |
| Model/Vfp2dStep.lean | adept/vfp2d/vector_field.py, ohm.py, collisions.py, distributed.py, filters and partitioned stencils of harmonics.py, run set-up of base.py |
| Model/Vlasov2d.lean | adept/_vlasov2d: pushers, Maxwell solver, collisions, time step, initial state, sharding options, moments |
| Model/Hermite.lean | adept/_hermite_poisson_1d: linear exponentials, Poisson, force terms, both integrators, sponge, drivers, initial state |
| Model/HermiteLegendre.lean | adept/_hermite_legendre_1d (vector_field.py all; modules.py: constants, options, initial states; storage.py: saved scalars) |
| Model/TwoFluid.lean | adept/_tf1d (solvers/pushers.py, solvers/vector_field.py, modules.py init and time loop) |
| Model/Electrostatic.lean | adept/electrostatic.py (dispersion functions) |
| Model/Vlasov2V.lean | adept/_vlasov1d2v (helpers.py perpendicular grid and initial state, solvers/pushers, solvers/vector_field.py, saved scalars of storage.py) |
| Model/Spectrax.lean | adept/_spectrax1d (hermite_fourier_ode.py, vector_field.py, nonlinear_vector_field.py, exponential_operators.py, integrators.py, driver.py; initial state, time grid and options of base_module.py; moments of storage.py) |
| Model/Lpse.lean | adept/_lpse2d (core/epw.py SpectralEPWSolver, core/laser.py, core/vector_field.py, modules/driver.py, initial state and time loop of modules/base.py; units, profile, filter, boundaries and saved quantities of helpers.py) |
| Model/Speckle.lean | adept/_lpse2d/core/speckle.py and its use in core/laser.py |
| Model/Beta.lean | adept/driftdiffusion.py (temperature, first guess, Newton refinement), fokker_planck.py SuperGaussianDougherty; the Newton solver is external: the iterate after at most max_steps steps |
| Model/VfpInit.lean | adept/vfp1d/helpers.py (super-Gaussian, profiles, two-column files, species loop), storage.py (saved moments, labels, save section); numpy.genfromtxt modelled, float() a parameter |
| Model/VlasovInit.lean | adept/_vlasov1d/helpers.py (super-Gaussian loading, total distribution), modules.py (species set, initial state), simulation.py (species, density profiles); the random numbers are a parameter |
| Model/VlasovSave.lean | adept/_vlasov1d/storage.py (moments, samples, save section), helpers.py (dispatch of stored streams), modules.py (save defaults, diagnostics switches), iaw.py (spectrum, window, screening length); interpax.interp2d modelled |
| Model/OsirisPlot.lean | adept/osiris/plots.py: decimation, (k, omega) spectrum, time slices, cropping, density, temperature, left/right split, field energies; drawing itself is not modelled |
| Model/Osiris.lean | adept/osiris/base.py (derived quantities, units, dimension), plots.py (ion-acoustic speeds, choice of field diagnostics, plot options), post.py (final field energy), regen.py (options and directories); HDF5 reading is a parameter |
| Model/Vfp2dRecon.lean | adept/vfp2d/plotting.py: vector potential, reconnection diagnostics and gates, metrics, choice of panels, colour scales; drawing is not modelled |
| Model/Vfp2dInit.lean | adept/vfp2d/base.py: profiles, initial distribution, save times; profile files are rows |
| Model/SpectraxWaves.lean | adept/_spectrax1d/epw_module.py, maxwell_module.py and windows of plotting.py; np.unwrap, np.gradient exact, np.polyfit by its closed form; drawing is not modelled |
| Model/Lineouts.lean | the strided choice of panels of all solvers |
| Model/SpeckleSeries.lean | adept/_lpse2d/core/speckle.py: the Fourier filter of the random series; the random numbers are parameters |
| Model/OsirisSeries.lean | adept/osiris/io.py: axes, RAW dumps, energy histories |
| Model/OsirisCanned.lean | adept/osiris/plots.py: control flow of save_canned_plots, profiles, density and temperature sources, colour limits, labels; drawing itself is a parameter |
| Model/VlasovShard.lean | adept/_vlasov1d: shard_map versions of the pushers and collisions, VlasovPoissonFokkerPlanck.__call__ over both integrators, collisions and filter |
| Model/VlasovSave2.lean | adept/_vlasov1d2v/storage.py get_dist_save_func_2v, adept/_vlasov2d/storage.py get_dist_save_func, _add_dim_axes |
| Model/VlasovDeck.lean | adept/_vlasov1d/datamodel.py as a whole against the reading of the same deck in modules.py, storage.py, vector_field.py, pushers/field.py, pushers/fokker_planck.py |
| Model/Vlasov2dDeck.lean | adept/_vlasov2d/datamodel.py against the reading of the same deck in modules.py, storage.py, solvers/vector_field.py, pushers/fokker_planck.py |
| Model/Vlasov2VDeck.lean | set-up, first step and save of adept/_vlasov1d2v (modules.py, storage.py, solvers/vector_field.py, pushers/fokker_planck.py) as far as they read the deck |
| Model/PicDeck.lean | adept/_pic1d/datamodel.py, simulation.py, the background of modules.py:87-125 and the checks of storage.py, solvers/vector_field.py |
| Model/TfDeck.lean | adept/_tf1d/datamodel.py against the reading of the same deck in modules.py, solvers/vector_field.py, solvers/pushers.py |
Not modelled at all: plotting, notebooks, test helpers, _lpse2d SpectralPotential and ParticleTrapper (never constructed) and plotting, osiris/plots.py, _spectrax1d plotting.

## Places where the code does not do what it says

Each has a proved witness, named here; the corresponding property is `partial`.

* Decks: a trailing comma or an embedded double quote is not preserved by the round
  trip (C01); two parameters can share a sanitised log name (C06).
* Streaming with `discard_grid_h5`: a crash can lose up to a chunk of staged dumps (C10);
  a restart after a spill leaves a gap, and a discard restart deletes spilled dumps (C11);
  finalize can report a diagnostic it never converted (C13).  Appending to a closed
  writer loses the row (`writer_append_after_close_lost`).
* run_osiris: an error line printed more than 200 lines before the end is missed (C15); when
  the final sync fails, scratch is deleted all the same (C45).  The docstring says a non-zero
  exit raises; the code salvages.
* list_diagnostics: a sub-directory named like a report series clashes with it (C47).
* log_params logs `n % 100` batches above 100 parameters (C23); flatten_dict merges
  keys containing dots and drops empty ones (C24); all_reduce_gradients fails for one run (C25).
* ergoExo: a failed second setup leaves the ready flag set on a half-initialised module (C27).
* The stored time axis is not spaced by `dt` (C22); Hermite-Legendre can stop early (C54).
* Vlasov-1D: Chang-Cooper's Taylor branch is inexact (C33); the Dougherty operator with
  central differences loses energy and can go negative (C56, C32); the drag-free operator moves
  every Maxwellian (C57); spectral shifts do not compose at Nyquist and odd lengths lose a cell
  (C36); the sixth-order kicks add up to less than `dt`, and leapfrog evaluates its driver at the
  start of the step after the full drift (C38); the cubic-spline push is not positive (C67); the
  Hou-Li filter of order 0 removes particles (C59).
* Envelopes with a negative rise or two different rises leave [0, 1] (C44); EMDriver with
  only one of the alternatives a0/intensity, k/wavelength crashes (C64).
* PIC: the loader's last sub-population can starve, crash or be truncated (C66); only a species
  literally named `electron` enters the wave equation (C63).
* VFP-1D: the flux limit is applied before the density scaling, and the anisotropy is added once
  per species (C71); `edfdv-ampere-implicit` fails on every grid (C69); the default central kernel
  scheme moves Maxwellians and loses energy (C73, C74); the resonance factor of the laser heating is
  consistent only for reference charge 1 (C75).
* VFP-2D: the magnetic operator turns the flux by (-Bx, By, Bz): for By and Bz this is the opposite
  of the Lorentz force, of the electric operator's convention and of the solver's own Ohm's law (C81).
* VFP-2D: with the Fourier derivative and even ny, the z flux at the Nyquist wave leaks into the
  density, so Gauss's law drifts (C83).  The Ohm law's magnetic terms agree with the kinetic operator
  only with By and Bz reversed (C85).  A run divided among devices uses differences instead of the
  Fourier derivative and another filter, and with short blocks the stencil depends on the number of
  devices (C88).  The kinetic-Ohm mode and the stored current use v instead of v/gamma when relativistic.
* Vlasov-2D: the magnetic rotation and the semi-Lagrangian acceleration lose particles at the velocity
  boundary (C90); the time step cap for "Maxwell stability" is above the stability limit (C94); the current is
  that of the moved distribution, so Gauss's law is not kept (C95); Krook relaxes to unit variance whatever
  T0 and mass, and Dougherty's energy is not exactly conserved as documented (C96); velocity-sharded
  initialization normalises each slice on its own (C97); a single species of charge other than -1 starts
  charged (C98).  Not modelled but read: saved vx/vy axes miss the half cell, so edge values are saved as 0; species
  named ex/ey/bz overwrite fields; the quasineutrality flag and Grid tmin are ignored.
* Hermite-Poisson: streaming and damping do not commute, so the "exact" linear exponential is not a flow and the
  Strang step is not symmetric (C104); the knee filter, and any filter of order zero, removes particles (C104);
  strang-exp deletes every coefficient, density included, beyond N//3 in each step (C105); lawson-rk4 silently ignores
  linear_response, wave_density_max and the number of force terms (C110); initial modes 0 and N replace the mean density,
  N/2 has half the amplitude, larger ones are ignored (C112); the sponge also damps static ions (C113).
  A net charge is ignored (C108).  lawson-rk4 takes the light source at mid-step although its wave equation is centred at
  the beginning of the step, so its light runs half a step ahead of the antenna (C128).
* Hermite-Legendre: the BGK guard against fewer than three Legendre modes never fires, and the moment map is then wrong
  (C125); two-stream with fewer than three Hermite modes silently is a single Maxwellian, bump-on-tail starts with a net
  charge (dropped by the Poisson solve), a custom row with `eps` but no `base` is zero (C126).  Not modelled but read: a save
  entry with an unknown name, or `fields` without `t`, is silently dropped.
* Two-fluid: dp/dt is divided by the mass once too often, so a fluid species of mass other than 1 has the wrong sound speed (C134); the
  kinetic closure damps at the tabulated rate but oscillates at sqrt(wr^2 - wi^2) instead of wr (C133); the `zk` trapping model is the
  constant 1/2 (C135); an odd number of cells fails in the first step (C137).  Read, not stated as properties: the table assumes T0 = 1;
  the pressure equation has a field-work term, so pressure can become negative; the trapping variable evolves even if its species is
  off; dx = xmax/nx ignores xmin; the default starting guess of the dispersion solver is a frequency where a scaled one is wanted.
* Vlasov-1D2V: a stochastic driver and the Hou-Li filter of the shared deck are silently ignored (C147); a species called
  electron is required (KeyError) even with collisions off, other species never collide (C146); "the sampled Maxwellian is an
  exact fixed point" holds for measured moments only (C145).
* Spectrax: the (exponential) Lawson integrator does not keep Gauss's law (C150); with collisions or the filter inside the exponential,
  the "exact" linear propagator is not a flow (C153); on grids with an even number of cells the unpaired Nyquist wave number makes real
  fields complex (C155); a filter of order 0, the default order in one of the two copies of the option, removes particles (C149, C162).
  Initial state (C157): mode numbers all zero delete the uniform density; anisotropic thermal speeds give the wrong density; a mode number
  equal to the grid size overwrites the mean; a negative nx gives the wrong sign of E; ny < 0 perturbs Bz, ny and nz > 0 perturbs Bx.
  The state saved at a step end precedes the damping of that step (C160); saved temperatures are about the basis drift, not the mean
  flow, Jx_total ignores the charges, the stored x axis includes the end point (C161); adaptive stepping is on by default in one path
  while the step limit assumes it off (C162); for Ny, Nz > 1 the driven field is concentrated on one line (C163).
* Envelope solver: the default "isotropic" filter does not dealias the pump product, and the transverse support of a speckled pump
  uses the wave number in the plasma instead of the vacuum one, so its outermost beamlets fall outside (C168); colours that snap to the
  same grid mode interfere (C169); shape "arbitrary" (the only trainable one, and the only one that can be saved) raises IndexError in
  the first step, a single colour sits at the lower band edge, the reader of a saved driver is chosen by a substring of the whole path
  (C170); landau, zero_mask, linear, srs and hyperviscosity switches are ignored, a run without E0 raises KeyError, one with E2
  AttributeError (C171); profile "uniform" is critical density, "tanh" and "sine" vary along y on square grids and fail on others,
  "exponential" raises KeyError (C172); stored fields carry a factor 4/(nx ny), the stored axes ignore the requested spacing,
  spectra are interpolated as if they were fields, a 64-bit process cannot write fields (C174); speckled pumps are normalised to mean
  amplitude, so their mean intensity always exceeds the configured one (C177); the density.noise section has no effect (C179); the
  collision rate and the reported Coulomb logarithm use thresholds that differ by 1000, and an integer `collisions` other than 0 is
  an UnboundLocalError (C180).
* Self-consistent temperature: the default three Newton steps can end far from the wanted temperature, silently
  (`throw=False`); a distribution hotter than a flat one has a negative parameter, hence a negative diffusion (C182, C183).
* VFP-1D output: the density column labelled `cm-3` always uses 9.09e21, whatever the laser wavelength (C189); a profile file with one
  row of numbers is reported as unreadable (C187). Vlasov-1D super-Gaussian collisions: the refined shape parameter
  is determined by the energy flux in the laboratory frame, so it depends on the frame when the distribution drifts (C185).
* Vlasov-1D initial state: for m other than 2 the variance is not T0/mass (half of it for m = 1), a single cell ignores its density
  profile (C190); a single species is neutral only if its charge is -1, the quasineutrality option has no effect, of two species
  with the same name only the last is simulated, without a background (C191); the uniform basis ignores space-profile, a species
  named "e" is overwritten by the field (C192).
* Vlasov-1D output: a save over the whole velocity range is NaN at its first and last velocity, as in the example of the
  documentation (C194); a second save of the fields is refused unless `fields` comes last, species names with a dot make
  streams collide, names beginning with field or default are stored as fields or scalars, {t, x, kv} and {t, kx, kv} are an
  UnboundLocalError, a deck without diagnostics section passes validation and then raises KeyError (C195); the late-time window of
  the ion-acoustic spectrum can be empty, its default screening length ignores the mean charge (C196). VFP-1D saves the
  flux n u under the name v (C189).
* OSIRIS plots: with an even number of cells the negative-frequency half of the (k, omega) image is displaced by one wave number,
  and a wave travelling to the right appears at k < 0 for omega > 0 (C200); the "number density" of ions of charge Z is Z n (C201);
  the total field energy drops at iterations where only some components were dumped (C203); line-outs can miss the last dump
  (C198); cropping keeps one cell outside the box, or none, when no cell centre lies inside (C199).
* OSIRIS deck and post-processing: the recorded number of steps ignores tmin, a deck with nx_p(1), nx_p(2) on separate entries is
  taken for one-dimensional (C204); the final field energy counts a component dumped in full and averaged twice and uses the
  full-grid cell volume for averaged dumps (C207); regenerating plots fails with a traceback if config.yaml is a list, and picks up
  the config.yaml of the parent directory when the run has none (C208).
* VFP-2D diagnostics: the vector potential loses Nyquist content on even grids (C209); on a box without the origin the X-point moves
  to the middle of the box but the Bz quadrupole is still measured about the origin, so a uniform Bz has purity one and cells above
  the sheet are never looked at; rate_normalization_valid is true for a run without any inflow; runs with nx = 1 or ny = 1 fail in
  post-processing, before anything is written (C210); n_panels = 1 shows the initial state (C211). VFP-2D decks: an unknown axis is
  taken as x, a profile without basis is uniform (C212), the exponent m is ignored by relativistic runs, default save times of runs
  with more than a hundred steps fall between steps (C213).
* Hermite-Fourier wave modules: a standing plasma wave is reported with a mean frequency that tends to zero, a wave saved less than
  twice per period is aliased without warning (C214); em_avg_frequency_k1 is documented for the latter 75% and uses the last 20%, and
  fewer than six saved times raise; mode curves with label k >= Nx/2 show mode k - Nx (C216). All other solvers: the final saved time
  is never a lineout panel (C217).
* Speckle series: with an odd number of samples the double fftshift displaces the Gaussian by one bin, `fwhm` is the half width of the
  power spectrum, and the SSD phase (Re + Im)/sqrt(2) has less than the requested rms (C176).
* OSIRIS phase spaces with autoscaled momenta: the temperature profile uses the momentum axis of the first dump for all dumps; with
  bounds twice as wide a quarter of the temperature is drawn (C201). Energy histories: a table whose last line was cut (run stopped
  while writing) loses the missing columns in every row, so particle counts are reported as kinetic energies (C220).
* Standard OSIRIS figures: drawing fields, moments and final phase spaces is not inside a handler, so a field dumped once (t[1]
  fails in the omega-k figure) ends the function before any moment, profile, phase-space or energy figure (C221); the temperature
  profile from thermal velocities is the sum over three directions, that from the phase space the variance of one, so the two sources
  differ threefold; any DENSITY entry, such as an energy density, is drawn as the density if no known one is there (C222).
* Vlasov-1D2V and Vlasov-2D accept and validate grid.parallel but never read it (C224). In Vlasov-1D the Hou-Li filter acts after the
  field solve, so that the saved field belongs to the unfiltered density (C225).
* Velocity save axes run from vmin to vmax while the grid holds cell centres. Outside the first and last centre Vlasov-1D saves NaN,
  Vlasov-1D2V continues the first cell linearly (3/2 of the first minus 1/2 of the second value, which can be negative) and
  Vlasov-2D saves zero (C227).
* The cubic-spline push puts 1e-30 where a characteristic comes from outside the velocity grid, once for every species, so a plasma
  written as two species is not exactly the plasma written as one (C230).
* The Vlasov-1D run reads the dictionary and not the validated configuration (C231): a deck without `diagnostics`, or with its entries by
  name, is accepted and ends with KeyError; so does a Hou-Li filter that relies on the defaults 36 and 36; a filter with `is_on: "off"`
  is on; collisions with `is_on: "off"` end the first step with TypeError; an unknown field solver ends with TypeError in its own
  message; an unknown collision operator is refused also when collisions are off; a diagnostic saved but off ends the first save;
  `dimensions: []` of the filter is accepted and not read; Boltzmann electrons accept species without any charge.
* The Vlasov-2D run reads the dictionary too (C232): `terms`, `drivers`, `edfdv`, `fokker_planck`, `krook` and the numbers of the filter
  have defaults, and decks that rely on them are accepted and end with KeyError; `skip_maxwell: "off"` skips Maxwell's equations and a
  filter with `is_on: "off"` is on; `grid.parallel` and `diagnostics` are checked and never read.
* Vlasov-1D2V looks for a species called "electron" also with collisions off, so that no run of ions with Boltzmann electrons starts
  unless an ion species has that name; it refuses `krook: {is_on: "off"}` (C233).
* PIC-1D (C234): the default of `terms.time` is lost (KeyError); `quasineutrality: "off"` keeps the background; two species of one
  name are accepted, the first is never loaded and the background counts the second twice, so that the run is not neutral.
* Two-fluid decks (C235): with trapping on, the first step looks for `args["nu_g"]`, which the solver's own arguments do not have
  (KeyError); `gamma` may be any word but only "kinetic" can be used; `save.kx: null` and `nuee: null` are accepted and end with
  TypeError; `is_on: "off"` is on.
