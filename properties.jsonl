{"id": "C01", "title": "OSIRIS deck round trip", "statement": "Parsing an OSIRIS deck, rendering it back and parsing again yields the same ordered list of (section, parameters): parse_deck(render_deck(parse_deck(text))) == parse_deck(text).", "quantifier": "every deck text the parser accepts; for the converse direction every list of well-formed sections, of any length, with any number of keys and list values", "why_tests_cant": "The set of decks is infinite; strings, quotes, empty list slots and key slices interact, and a test deck only exercises the combinations its author thought of.", "anchors": ["adept/osiris/deck.py:parse_deck", "adept/osiris/deck.py:render_deck", "adept/osiris/deck.py:_render_value"]}
{"id": "C02", "title": "Deck comments never change the deck", "statement": "Appending '! anything' to a line of a deck outside a quoted string leaves the result of parse_deck unchanged, and a '!' inside a quoted string is kept as data.", "quantifier": "every line, every position outside quotes, every comment text", "why_tests_cant": "Quote state depends on the whole prefix of the line; tests only check a handful of lines.", "anchors": ["adept/osiris/deck.py:_strip_comment", "adept/osiris/deck.py:parse_deck"]}
{"id": "C03", "title": "Deck parsing always terminates with sections or a ValueError", "statement": "parse_deck on any text returns sections or raises ValueError; it never loops forever and never reads past the end of the text.", "quantifier": "every input string", "why_tests_cant": "Nested while-loops with manual index arithmetic; non-termination cannot be excluded by finitely many runs.", "anchors": ["adept/osiris/deck.py:parse_deck"]}
{"id": "C04", "title": "Overrides touch exactly the sections they name", "statement": "merge_overrides leaves the number, order and names of the deck sections unchanged; every section not named by an override (or not selected by an index) keeps exactly its parameters; a named section with every key resolvable ends up with the override values.", "quantifier": "every deck, every override dictionary, any number of repeated sections", "why_tests_cant": "Repeated sections and mixed indexed/blanket overrides make an unbounded input space.", "anchors": ["adept/osiris/deck.py:merge_overrides", "adept/osiris/deck.py:_merge_params"]}
{"id": "C05", "title": "Override key resolution", "statement": "An override key names the exact key if present; otherwise the unique key with that base name; otherwise a brand-new key; and it is rejected exactly when the base name is ambiguous. An override never silently edits a different key.", "quantifier": "every section and every requested key", "why_tests_cant": "Key sets are unbounded and the ambiguous case depends on the whole section.", "anchors": ["adept/osiris/deck.py:_find_param_key"]}
{"id": "C06", "title": "Deck parameter logging loses nothing and uses legal names", "statement": "Every key produced by deck_to_flat_dict consists only of characters MLflow accepts, and distinct deck parameters get distinct logged names, so that no parameter is silently overwritten.", "quantifier": "every deck", "why_tests_cant": "Collisions arise from pairs of keys after sanitising, which tests do not enumerate.", "anchors": ["adept/osiris/deck.py:deck_to_flat_dict", "adept/osiris/deck.py:_sanitize_key"]}
{"id": "C07", "title": "Stream writer is a lossless log", "statement": "Whatever sequence of append and flush calls is made, the time slots on disk followed by the pending batch are exactly the appended dumps in order; n_written is their number; after flush or close everything is on disk; the pending batch never reaches the chunk size.", "quantifier": "every sequence of append/flush/close/reopen, every chunk size", "why_tests_cant": "Histories are unbounded and the batch boundary matters at every length.", "anchors": ["adept/osiris/stream.py:StreamWriter.append", "adept/osiris/stream.py:StreamWriter._write_batch", "adept/osiris/stream.py:StreamWriter.flush", "adept/osiris/stream.py:StreamWriter.close"]}
{"id": "C08", "title": "Streaming conversion is exactly-once and in order", "statement": "After finalize, the NetCDF time series of a streamed diagnostic contains every readable dump OSIRIS produced exactly once, in increasing iteration order, and nothing else - whatever the interleaving of dumps and scans, spills, quarantines and deferred deletions.", "quantifier": "every interleaving of OSIRIS writing dumps and the watcher scanning, every spill decision, every set of unreadable dumps, every pattern of failing deletions", "why_tests_cant": "The schedules are unbounded and nondeterministic.", "anchors": ["adept/osiris/stream.py:StreamConverter._scan_once", "adept/osiris/stream.py:StreamConverter._drain_grid", "adept/osiris/stream.py:StreamConverter.finalize"]}
{"id": "C09", "title": "The watcher never reads the dump being written", "statement": "While OSIRIS is running the converter never opens, copies or deletes the highest-numbered dump of a diagnostic; only the final sweep does.", "quantifier": "every schedule of dumps and scans", "why_tests_cant": "A race: depends on the interleaving, not on inputs.", "anchors": ["adept/osiris/stream.py:StreamConverter._drain_grid", "adept/osiris/stream.py:StreamConverter._drain_raw"]}
{"id": "C10", "title": "Staged dumps are never lost", "statement": "In staging mode a dump is removed from the scratch only when its data is durable elsewhere (mirrored to the persist tree or landed in the NetCDF), so killing the process at any point loses no produced dump.", "quantifier": "every schedule and every crash point", "why_tests_cant": "Crash points between two filesystem operations are not reachable from unit tests.", "anchors": ["adept/osiris/stream.py:StreamConverter._reap", "adept/osiris/stream.py:StreamConverter._cleanup_consumed", "adept/osiris/stream.py:StreamConverter._drain_grid"]}
{"id": "C11", "title": "Restarting the converter is idempotent", "statement": "If the converter is stopped after any scan and a new one is started on the same directories, the final NetCDF is the same as without the restart: no slot duplicated, none missing.", "quantifier": "every schedule with any number of restarts at any points", "why_tests_cant": "Restart points are unbounded; resume logic depends on what landed on disk.", "anchors": ["adept/osiris/stream.py:StreamWriter.__init__", "adept/osiris/stream.py:StreamConverter._open_writer"]}
{"id": "C12", "title": "Unreadable dumps are isolated", "statement": "A dump that cannot be read is sidelined once, is never retried, never appears in the NetCDF and does not stop the later dumps of the same diagnostic from being converted.", "quantifier": "every subset of unreadable dumps and every schedule", "why_tests_cant": "Depends on positions of bad dumps relative to scans and writer creation.", "anchors": ["adept/osiris/stream.py:StreamConverter._quarantine", "adept/osiris/stream.py:StreamConverter._open_writer"]}
{"id": "C13", "title": "finalize only reports diagnostics that are fully converted", "statement": "The set returned by StreamConverter.finalize contains only diagnostics whose NetCDF holds every readable dump, since the caller skips the batch rebuild for them.", "quantifier": "every history, including failing sweeps and directories that acquire a second report series", "why_tests_cant": "Requires fault injection at every filesystem call of the final sweep.", "anchors": ["adept/osiris/stream.py:StreamConverter.finalize", "adept/osiris/stream.py:StreamConverter._diags"]}
{"id": "C14", "title": "Watcher log lines are rate limited", "statement": "n occurrences of the same error produce 1 + (number of multiples of error_log_every in 2..n) log lines; the first is always logged.", "quantifier": "every number of occurrences and every throttle value >= 1", "why_tests_cant": "Counts are unbounded.", "anchors": ["adept/osiris/stream.py:StreamConverter._log_every"]}
{"id": "C15", "title": "OSIRIS run outcome classification", "statement": "A run raises exactly when the process exited non-zero or printed an error line, and left no output; it is salvaged when it failed but left output; a run with exit code 0 and no error line is a success. A line containing '(*warning*)' or empty never counts as an error.", "quantifier": "every exit code, every stdout/stderr text, every output state", "why_tests_cant": "Outcome is a function of unbounded text streams.", "anchors": ["adept/osiris/runner.py:run_osiris", "adept/osiris/runner.py:_looks_like_osiris_error"]}
{"id": "C16", "title": "Log streaming keeps every line and the newest tail", "statement": "Every line of the process output is written to the log file in order, and the in-memory tail is exactly the last N lines.", "quantifier": "every output length", "why_tests_cant": "Output is unbounded.", "anchors": ["adept/osiris/runner.py:_stream_to_file_and_buffer"]}
{"id": "C17", "title": "Final sync never overwrites durable files", "statement": "The scratch-to-persist sync copies every missing file and never modifies one that already exists; running it twice is the same as once.", "quantifier": "every pair of directory trees", "why_tests_cant": "Trees are unbounded; idempotence quantifies over all.", "anchors": ["adept/osiris/runner.py:_sync_tree"]}
{"id": "C18", "title": "OSIRIS binary discovery precedence", "statement": "The binary is the configured path if given, else the dimension-specific environment variable, else the generic one; the first that exists wins and absence of all raises.", "quantifier": "every configuration and environment", "why_tests_cant": "Finite but combinatorial; only a statement over all environments fixes the precedence.", "anchors": ["adept/osiris/runner.py:discover_binary"]}
{"id": "C19", "title": "Dump series are grouped and ordered by iteration", "statement": "Listing a diagnostic directory yields each report series sorted by OSIRIS iteration, each *.h5 file in exactly one series; a directory with several series is rejected rather than mixed.", "quantifier": "every set of file names", "why_tests_cant": "File name sets are unbounded.", "anchors": ["adept/osiris/io.py:_series_dumps", "adept/osiris/io.py:_sort_dumps", "adept/osiris/io.py:_iter_from_name"]}
{"id": "C20", "title": "Time-index selection follows Python indexing", "statement": "Selecting dumps by index accepts exactly the indices -n..n-1, maps i<0 to n+i, keeps the requested order, and rejects anything else (and an empty selection).", "quantifier": "every number of dumps and every index list", "why_tests_cant": "Unbounded index lists.", "anchors": ["adept/osiris/io.py:_normalize_t_indices"]}
{"id": "C21", "title": "Gradient scale length rewriting", "statement": "apply_gradient_scale_length with target L yields a deck whose linear density ramp has scale length exactly L at the reference density, with a cell size no coarser than before and a cell count that is a multiple of the node count; without a request the deck is untouched.", "quantifier": "every deck with a ramp, every target L>0, every node count", "why_tests_cant": "Real-valued inputs; rounding of the cell count must hold for every value.", "anchors": ["adept/osiris/density.py:apply_gradient_scale_length"]}
{"id": "C22", "title": "Time grid covers the requested time and respects the CFL limit", "statement": "For a Vlasov-1D run, dt*nt is at least the requested tmax and exceeds it by at most one step; with EM waves dt <= 0.95 dx/c; grid cell centres are evenly spaced inside the box.", "quantifier": "every tmax, dt, nx, box", "why_tests_cant": "Continuous parameters and truncation.", "anchors": ["adept/_vlasov1d/grid.py:Grid"]}
{"id": "C23", "title": "MLflow parameter logging is complete", "statement": "log_params logs every parameter of the flattened configuration exactly once, whatever their number, in batches of at most 100.", "quantifier": "every configuration size", "why_tests_cant": "The failure depends on the size modulo 100.", "anchors": ["adept/utils.py:log_params"]}
{"id": "C24", "title": "Configuration flattening preserves every leaf", "statement": "flatten_dict maps every leaf of a nested configuration to the key obtained by joining its path with dots, with its value, and nothing else.", "quantifier": "every nested dictionary", "why_tests_cant": "Unbounded nesting; collisions depend on pairs of paths.", "anchors": ["adept/utils.py:flatten_dict"]}
{"id": "C25", "title": "Gradient reduction averages and clips", "statement": "all_reduce_gradients returns, entrywise, the average of the non-NaN per-run gradients' sum divided by the number of runs, clipped to [-1e3,1e3], None where entries are None.", "quantifier": "every number of runs and every gradient content", "why_tests_cant": "Number of runs unbounded; NaN positions combinatorial.", "anchors": ["adept/utils.py:all_reduce_gradients"]}
{"id": "C26", "title": "Artifact upload retry", "statement": "robust_log_artifacts tries at most `retries` times, stops at the first success, and never raises.", "quantifier": "every pattern of failures", "why_tests_cant": "Failure patterns are external.", "anchors": ["adept/utils.py:robust_log_artifacts"]}
{"id": "C27", "title": "Simulation lifecycle order", "statement": "ergoExo only runs a simulation after setup; setup calls the module hooks in the documented order exactly once; the caller's configuration object is never modified and the logged configuration is the one the user supplied.", "quantifier": "every sequence of setup / run / val_and_grad calls and every module behaviour on its own copy of the configuration", "why_tests_cant": "Call histories are unbounded; aliasing of nested dictionaries is not visible to output checks.", "anchors": ["adept/_base_.py:ergoExo"]}
{"id": "C28", "title": "Solver dispatch", "statement": "Every documented solver name selects its own module, an unknown name raises NotImplementedError, and every solver but envelope-2d refuses to run without 64-bit mode.", "quantifier": "every solver string and both precision modes", "why_tests_cant": "The unknown names are infinitely many.", "anchors": ["adept/_base_.py:ergoExo._get_adept_module_"]}
{"id": "C29", "title": "Unit normalisation", "statement": "normalize returns numbers unchanged, divides physical quantities by the reference of their dimension (multiplies for wavenumbers) and rejects unknown dimensions and missing normalisations; converting x and k with the same normalisation leaves the product k*x invariant.", "quantifier": "every quantity and every normalisation", "why_tests_cant": "Continuous inputs.", "anchors": ["adept/normalization.py:normalize", "adept/normalization.py:PlasmaNormalization"]}
{"id": "C30", "title": "Scalars filter", "statement": "filter_scalars keeps exactly the scalar leaves, at the same path, with the same value, and never leaves an empty dictionary.", "quantifier": "every nested metrics dictionary", "why_tests_cant": "Unbounded nesting.", "anchors": ["adept/utils.py:filter_scalars"]}
{"id": "C31", "title": "Fokker-Planck step conserves density", "statement": "One implicit collision step with the central, Chang-Cooper or log-mean discretisation and zero-flux boundaries leaves the number density unchanged, for every drift, diffusion, time step and grid; with velocity-dependent rate nu(v) it conserves the sum of f/nu.", "quantifier": "every grid size, distribution, coefficient array, time step", "why_tests_cant": "Real-valued arrays of any size; a test checks a tolerance on a few.", "anchors": ["adept/driftdiffusion.py:CentralDifferencing.get_operator", "adept/driftdiffusion.py:ChangCooper.get_operator"]}
{"id": "C32", "title": "Chang-Cooper step preserves positivity", "statement": "With the Chang-Cooper discretisation a non-negative distribution stays non-negative after an implicit collision step of any size, and the step has exactly one solution.", "quantifier": "every non-negative f, every drift, every positive diffusion, every dt >= 0", "why_tests_cant": "Positivity for all dt is an M-matrix property, not a sample check.", "anchors": ["adept/driftdiffusion.py:ChangCooper.get_operator", "adept/driftdiffusion.py:chang_cooper_delta"]}
{"id": "C33", "title": "Chang-Cooper keeps the discrete Maxwellian", "statement": "The Maxwellian exp(-beta (v-vbar)^2) with matching drift/diffusion ratio is an exact fixed point of the Chang-Cooper collision step for every grid and dt.", "quantifier": "every beta, mean velocity, grid and dt", "why_tests_cant": "Equality over the reals for every parameter; numerically only approximate.", "anchors": ["adept/driftdiffusion.py:ChangCooper", "adept/driftdiffusion.py:chang_cooper_delta"]}
{"id": "C34", "title": "Krook operator", "statement": "The Krook collision step conserves density at every position and moves f monotonically towards n times the Maxwellian; with rate zero it is the identity.", "quantifier": "every f, rate profile, dt", "why_tests_cant": "Continuous inputs.", "anchors": ["adept/_vlasov1d/solvers/pushers/fokker_planck.py:Krook"]}
{"id": "C35", "title": "Collisions act only on the reference species", "statement": "The collision operator of a multi-species Vlasov-1D run changes only the reference species (electron if present, else the first) and leaves all others bit-identical.", "quantifier": "every set of species", "why_tests_cant": "Dictionary of any size.", "anchors": ["adept/_vlasov1d/solvers/pushers/fokker_planck.py:Collisions"]}
{"id": "C36", "title": "Vlasov advection conserves particles", "statement": "Spectral advection in x and v leaves the total particle number unchanged for every field and dt, is the identity for zero velocity/force, and successive shifts add.", "quantifier": "every distribution, field, dt and grid size", "why_tests_cant": "Exact equality for all inputs.", "anchors": ["adept/_vlasov1d/solvers/pushers/vlasov.py:VelocityExponential", "adept/_vlasov1d/solvers/pushers/vlasov.py:SpaceExponential"]}
{"id": "C37", "title": "Self-consistent field has zero mean and exerts no net force", "statement": "The spectral Poisson field satisfies discrete Gauss's law for every non-zero mode, has zero spatial mean, and the total force sum(rho*E) on the plasma vanishes.", "quantifier": "every charge density, every grid size", "why_tests_cant": "All densities.", "anchors": ["adept/_vlasov1d/solvers/pushers/field.py:SpectralPoissonSolver"]}
{"id": "C38", "title": "Time-splitting integrators are consistent and symmetric", "statement": "The substeps of every splitting integrator add up to exactly dt for both the advection and the acceleration, and the symmetric ones read the same backwards.", "quantifier": "every dt", "why_tests_cant": "Statement about coefficients for all dt and all states.", "anchors": ["adept/_vlasov1d/solvers/vector_field.py:LeapfrogIntegrator", "adept/_vlasov1d/solvers/vector_field.py:SixthOrderHamIntegrator", "adept/_pic1d/solvers/vector_field.py"]}
{"id": "C39", "title": "PIC deposition conserves charge", "statement": "For linear, TSC and cubic shape functions, depositing particles on the periodic grid gives a density whose integral equals the total particle weight, with non-negative weights, and gathering a constant field returns the constant.", "quantifier": "every particle set and position, every grid size", "why_tests_cant": "Positions are continuous; partition of unity must hold everywhere including cell edges.", "anchors": ["adept/_pic1d/solvers/pushers/shape.py", "adept/_pic1d/solvers/pushers/push.py"]}
{"id": "C40", "title": "PIC self-force vanishes", "statement": "Deposit and gather use the same weights, so with an antisymmetric field solve the total momentum change of all particles from the self-consistent field is zero.", "quantifier": "every particle set", "why_tests_cant": "All particle configurations.", "anchors": ["adept/_pic1d/solvers/pushers/shape.py", "adept/_pic1d/solvers/pushers/field.py"]}
{"id": "C41", "title": "PIC particles stay in the box", "statement": "After every drift each particle position lies in [xmin, xmax), differs from the unwrapped position by a whole number of box lengths, and velocities, weights and the number of particles are unchanged.", "quantifier": "every state and dt", "why_tests_cant": "Wrap-around for arbitrary displacement.", "anchors": ["adept/_pic1d/solvers/pushers/shape.py", "adept/_pic1d/solvers/pushers/push.py"]}
{"id": "C42", "title": "VFP-1D transport is conservative", "statement": "The staggered divergence used by VFP-1D telescopes: the volume-weighted sum of div F equals the boundary flux difference, hence zero with periodic or reflecting boundaries, in planar and spherical geometry.", "quantifier": "every flux array, every grid", "why_tests_cant": "All arrays of any size.", "anchors": ["adept/vfp1d/vector_field.py"]}
{"id": "C43", "title": "VFP-1D mixture is quasineutral", "statement": "The ion mixture built from the species table satisfies sum Z n_i = n_e and sum Z^2 n_i = Zeff n_e.", "quantifier": "every species table", "why_tests_cant": "Continuous inputs.", "anchors": ["adept/vfp1d/base.py"]}
{"id": "C44", "title": "Envelope bounds", "statement": "A bump envelope lies between baseline and baseline+height and the trough envelope is its complement, for every time, centre, width and rise.", "quantifier": "every real argument", "why_tests_cant": "Continuum of arguments.", "anchors": ["adept/functions.py:EnvelopeFunction"]}
{"id": "C45", "title": "A staged OSIRIS run hands everything over", "statement": "When run_osiris stages its output on scratch (stage_root with streaming), then whether the run succeeds, is salvaged or raises, every file left on scratch ends up in the durable run directory, nothing already there is overwritten, and scratch is removed. stage_root without streaming is ignored.", "quantifier": "every scratch and durable file tree, every run outcome, every interruption of the final copy", "why_tests_cant": "All file trees and all failure points of the copy.", "anchors": ["adept/osiris/runner.py:run_osiris", "adept/osiris/runner.py:_sync_tree"]}
{"id": "C46", "title": "OSIRIS command line", "statement": "With one rank the binary is run directly; with N>1 ranks the command is launcher -n N, the extra launcher arguments in order, then the binary.", "quantifier": "every launcher, rank count, extra argument list", "why_tests_cant": "All argument lists.", "anchors": ["adept/osiris/runner.py:run_osiris"]}
{"id": "C47", "title": "list_diagnostics is complete and unambiguous", "statement": "Every raw dump below MS/ is reachable through exactly the diagnostics listed: each listed diagnostic loads a non-empty series of dumps of one report in iteration order, every dump belongs to one; a streamed NetCDF stands in only for a diagnostic without raw dumps.", "quantifier": "every directory tree and streamed set", "why_tests_cant": "All directory trees.", "anchors": ["adept/osiris/io.py:list_diagnostics", "adept/osiris/io.py:_sort_dumps"]}
{"id": "C48", "title": "load_series selection", "statement": "Loading a selection of time indices gives exactly the selected slices in the requested order, and gives the same result from raw dumps as from the NetCDF saved from all of them.", "quantifier": "every series and index list", "why_tests_cant": "All index lists.", "anchors": ["adept/osiris/io.py:load_series"]}
{"id": "C49", "title": "Saving datasets is isolated per diagnostic", "statement": "save_run_datasets writes every wanted diagnostic that can be converted regardless of failures of the others; wanted means no whitelist or a whitelist hit; an already streamed file is reused.", "quantifier": "every whitelist, diagnostic list and failure pattern", "why_tests_cant": "All failure patterns.", "anchors": ["adept/osiris/io.py:save_run_datasets"]}
{"id": "C50", "title": "Final iteration and HIST tables", "statement": "The final iteration reported for a run is the largest iteration of any dump in the field (else whole) tree; a HIST table keeps exactly the numeric rows, truncated to a common width.", "quantifier": "every file list, every text file", "why_tests_cant": "All files.", "anchors": ["adept/osiris/post.py", "adept/osiris/io.py:load_hist"]}
{"id": "C51", "title": "MLflow run ids survive JIT-compiled code", "statement": "Encoding a run id as an int8 array and reading it back gives the same id, and distinct ids stay distinct.", "quantifier": "every byte string", "why_tests_cant": "All strings.", "anchors": ["adept/mlflow_logging.py:MLRunId"]}
{"id": "C52", "title": "Logging modules", "statement": "A logging module called with MLflow on creates one run and executes setup, pre-logging, the computation and post-logging once each in that order under that run; with MLflow off no run is created, no logging hook executes and the result is the same; a missing batch number or ill-typed parent run is rejected before any effect.", "quantifier": "every module, argument and call", "why_tests_cant": "All modules.", "anchors": ["adept/mlflow_logging.py:MlflowLoggingModule", "adept/mlflow_logging.py:create_mlflow_run", "adept/mlflow_logging.py:mlflow_callback"]}
{"id": "C53", "title": "Normalisations fit together", "statement": "For every density and temperature the electron and ion Debye normalisations have unit length = unit velocity x unit time, unit length the Debye length and unit time the inverse plasma frequency; the laser normalisation uses the reduced wavelength, c and the inverse laser frequency and reports the critical density; giving OSIRIS a reference density or the corresponding plasma frequency yields the same units; quantities of the wrong dimension are rejected.", "quantifier": "every density, temperature, wavelength, frequency, ion mass and charge", "why_tests_cant": "Continuous parameters.", "anchors": ["adept/normalization.py:electron_debye_normalization", "adept/normalization.py:ion_debye_normalization", "adept/normalization.py:laser_normalization", "adept/normalization.py:skin_depth_normalization_from_frequency"]}
{"id": "C54", "title": "Every solver runs at least to the requested time", "statement": "In every solver the derived end time is a whole number of steps, not before the requested end time and at most one step after it; time step limits (light crossing) are respected where the solver derives the step.", "quantifier": "every end time, step, grid", "why_tests_cant": "Truncation and rounding for every real value.", "anchors": ["adept/_vlasov2d/grid.py:Grid", "adept/vfp1d/grid.py:Grid", "adept/vfp2d/base.py", "adept/_tf1d/modules.py", "adept/_hermite_poisson_1d/modules.py", "adept/_hermite_legendre_1d/modules.py", "adept/_lpse2d/helpers.py", "adept/_spectrax1d/base_module.py"]}
{"id": "C55", "title": "FFT-friendly grid size", "statement": "next_smooth_fft_size(n, p) terminates and returns the smallest integer that is at least n and has no prime factor above 5 (above 7 when p >= 7).", "quantifier": "every n and p", "why_tests_cant": "Unbounded n; the generator's ordering invariant must hold at every iteration.", "anchors": ["adept/_lpse2d/helpers.py:next_smooth_fft_size"]}
{"id": "C56", "title": "Momentum and energy budget of the Dougherty operator", "statement": "One implicit Dougherty collision step with the central scheme on a uniform grid changes momentum only through the distribution in the two end cells; its energy changes by those cells, the momentum error and a loss proportional to density times dv^2 (so, contrary to the class documentation, energy is not conserved exactly).", "quantifier": "every grid, distribution, rate and time step", "why_tests_cant": "Exact identities over the reals for all arrays; a test sees only rounding-level drifts.", "anchors": ["adept/_vlasov1d/solvers/pushers/fokker_planck.py:Dougherty", "adept/driftdiffusion.py:CentralDifferencing.get_operator", "adept/driftdiffusion.py:discrete_temperature"]}
{"id": "C57", "title": "Drag-free operator", "statement": "The dougherty_nodrag collision step conserves density and, as its comments say, leaves the self-consistent Maxwellian unchanged.", "quantifier": "every grid, temperature, rate and time step", "why_tests_cant": "Exact fixed points cannot be told from slow drifts by a test.", "anchors": ["adept/_vlasov1d/solvers/pushers/fokker_planck.py:Collisions._apply_collisions"]}
{"id": "C58", "title": "Vlasov-1D fields obey Gauss's law for ever", "statement": "After every step the field returned obeys Gauss's law with the charge density of the returned distributions, for every resolved wave: by construction with the Poisson solver, and by exact preservation with the current-based spectral solver (hampere), for any drivers and any number of steps. Unsupported solver combinations are refused.", "quantifier": "all grids, species, drivers, numbers of steps and wave numbers", "why_tests_cant": "a drift of the error over a long run, or a wave number where the solver and the push disagree, is invisible in short tests", "anchors": ["adept/_vlasov1d/solvers/pushers/field.py:HampereSolver", "adept/_vlasov1d/solvers/pushers/field.py:SpectralPoissonSolver", "adept/_vlasov1d/solvers/vector_field.py:LeapfrogIntegrator"]}
{"id": "C59", "title": "The Hou-Li filter only damps", "statement": "For every strength alpha >= 0 and order >= 1 the filter keeps the number of particles at every velocity, its factors lie in (0,1] and decrease with the wave number, and the sum of squares never grows.", "quantifier": "all alpha, orders, grids and distributions", "why_tests_cant": "a filter that loses particles does so slowly; tests fix one alpha and order", "anchors": ["adept/_vlasov1d/solvers/pushers/vlasov.py:HouLiFilter"]}
{"id": "C60", "title": "A Vlasov step keeps every species", "statement": "One step, hence a run of any length, of either integrator with any field solver, external driver and laser keeps the number of particles of every species, and the species' charge, mass and velocity grid, their number and their order.", "quantifier": "all integrators, solvers, drivers, species lists and run lengths", "why_tests_cant": "conservation must hold for every driver history, not for the ones simulated", "anchors": ["adept/_vlasov1d/solvers/vector_field.py:LeapfrogIntegrator", "adept/_vlasov1d/solvers/vector_field.py:SixthOrderHamIntegrator"]}
{"id": "C61", "title": "Ponderomotive push of a light wave", "statement": "A light wave adds to every particle the velocity dt (q/m)^2 times minus half the slope of the squared amplitude at its position: down the slope, equal for both signs of the charge and of the wave, nothing where the amplitude is uniform.", "quantifier": "every wave amplitude, particle set, shape and step", "why_tests_cant": "All amplitudes and positions.", "anchors": ["adept/_pic1d/solvers/pushers/push.py:_Kicker.apply"]}
{"id": "C62", "title": "The laser solver is a wave equation with open ends", "statement": "One step of the transverse-wave solver makes the second time difference of the vector potential equal to c^2 times its discrete Laplacian minus the plasma term plus the driver at every interior cell; a plane wave obeying the grid dispersion relation is an exact solution; at Courant number one a pulse leaves through either end without reflection and the box is empty afterwards; the solver is linear and mirror symmetric, keeps the previous field as history, and does nothing when switched off. The split into right- and left-going parts adds up to the field and is exact for one-directional waves.", "quantifier": "all grids, fields, densities, sources, Courant numbers (or Courant number one where stated) and numbers of steps", "why_tests_cant": "tests run one pulse on one grid", "anchors": ["adept/_vlasov1d/solvers/pushers/field.py:WaveSolver", "adept/_pic1d/solvers/vector_field.py", "adept/_pic1d/storage.py"]}
{"id": "C63", "title": "A complete particle run keeps its particles and its diagnostics agree with its state", "statement": "Over a particle-in-cell run of any length every species keeps its particle count, weights, charge and mass, and all particles stay in the box; the field reported at each output is the field of the particle positions at that output; without transverse driver the run is the purely electrostatic one; saved density integrates to the number of particles and is the same at every output; the plasma acts on the wave only through the species named electron.", "quantifier": "all configurations, drivers, particle sets and run lengths", "why_tests_cant": "tests sample a few short runs", "anchors": ["adept/_pic1d/solvers/vector_field.py", "adept/_pic1d/storage.py", "adept/_pic1d/modules.py"]}
{"id": "C64", "title": "External drivers are superpositions of the configured pulses", "statement": "The longitudinal driver field is the sum of its pulses, independent of their order and grouping, zero when there are none; one pulse is a travelling wave of amplitude a0 (w0+dw0) under its envelopes and never exceeds that; the transverse driver acts in the nearest cell to its position when it is a point source and under its envelope otherwise; a pulse configured by amplitude with wave number, frequency or both is accepted and its missing number filled in from k = w/c.", "quantifier": "all pulse lists, times, positions and configurations", "why_tests_cant": "all superpositions and orders", "anchors": ["adept/_vlasov1d/solvers/pushers/field.py:Driver", "adept/_vlasov1d/datamodel.py:EMDriver", "adept/_pic1d/solvers/vector_field.py", "adept/functions.py"]}
{"id": "C65", "title": "The stochastic driver covers the run, is stationary and periodic", "statement": "The stochastic driver's refresh interval is never longer than half the correlation time nor than the requested interval, its random series covers the whole run, its amplitudes are stationary with the configured variance (an exponentially correlated process), and the field it makes is periodic in the box.", "quantifier": "all correlation times, steps, run lengths, spectra and random seeds", "why_tests_cant": "statistical stationarity and coverage for every run length", "anchors": ["adept/_vlasov1d/solvers/pushers/iaw.py", "adept/_vlasov1d/solvers/pushers/field.py"]}
{"id": "C66", "title": "The particle loader represents the configured density", "statement": "Loading a species places exactly the requested number of particles inside the box, with non-negative weights that add up to the density integral, every configured sub-population being represented with its share, and the static background neutralises the box.", "quantifier": "all species, density profiles, particle counts, load modes and random draws", "why_tests_cant": "every profile and count split", "anchors": ["adept/_pic1d/modules.py", "adept/_pic1d/helpers.py"]}
{"id": "C67", "title": "The cubic-spline push shifts the distribution", "statement": "The cubic-spline velocity push moves each row of the distribution by dt times the acceleration: exactly for linear (parabolic, whole-cell) data, keeping particle number and shifting mean velocity exactly while the distribution is away from the grid ends; it is linear, changes nothing for zero force and keeps the distribution non-negative.", "quantifier": "all distributions, forces, steps and grids", "why_tests_cant": "every row, shift and grid", "anchors": ["adept/_vlasov1d/solvers/pushers/vlasov.py:_uniform_cubic_interp", "adept/_vlasov1d/solvers/pushers/vlasov.py:VelocityCubicSpline"]}
{"id": "C68", "title": "VFP-1D field push conserves electrons and does the right work", "statement": "Pushing the electron distribution with an electric field changes the density of a cell only by what crosses the top of the speed grid, heats it by the Joule work of the edge currents and accelerates the current by the field times the density, all up to the same top-of-grid terms.", "quantifier": "every field, distribution, grid and explicit method", "why_tests_cant": "Every array and grid size.", "anchors": ["adept/vfp1d/vector_field.py:_edfdv_", "adept/vfp1d/vector_field.py:push_edfdv"]}
{"id": "C69", "title": "A VFP-1D time step is closed and keeps equilibria", "statement": "A complete step (transport, isotropic collisions, field solve, field push, anisotropic collisions) keeps walls closed and the two copies of a periodic edge equal, leaves ions and magnetic field alone, changes the number of electrons only through the top of the speed grid, leaves a uniform equilibrium plasma untouched, and works for every advertised field solver.", "quantifier": "all states, grids, collision operators, numbers of steps", "why_tests_cant": "Every reachable state of an arbitrarily long run.", "anchors": ["adept/vfp1d/vector_field.py:OSHUN1D.__call__"]}
{"id": "C70", "title": "The implicit electric field cancels the current", "statement": "The implicit field solve returns the field for which the current after the field push and collisions vanishes at every interior edge.", "quantifier": "all states and collision operators", "why_tests_cant": "Every state.", "anchors": ["adept/vfp1d/vector_field.py:implicit_e_solve"]}
{"id": "C71", "title": "The VFP-1D initial state is physical", "statement": "The initial anisotropy carries no current, is bounded by the isotropic part everywhere (no negative phase-space density), is periodic in a periodic box and depends on the total distribution only, not on how it is split into species.", "quantifier": "all profiles, species tables, density scalings, boundaries", "why_tests_cant": "Every profile and table.", "anchors": ["adept/vfp1d/helpers.py:_initialize_total_distribution_", "adept/vfp1d/base.py:init_state_and_args"]}
{"id": "C72", "title": "Isotropic collisions keep the density and stay non-negative", "statement": "A step of the isotropic collision operator keeps the density of the cell exactly for every model, scheme, heating and step size; with Chang-Cooper differences it has exactly one result and never makes a non-negative distribution negative; only the documented model and scheme names are accepted.", "quantifier": "every distribution, model, scheme, rate, heating and step size", "why_tests_cant": "Continuous unbounded inputs.", "anchors": ["adept/vfp1d/fokker_planck.py:F0Collisions", "adept/vfp1d/fokker_planck.py:get_model", "adept/vfp1d/fokker_planck.py:get_scheme"]}
{"id": "C73", "title": "Kernel collisions conserve energy", "statement": "With the Coulombian or the asymptotic kernel the collision term carries no energy, so that a step changes the energy only through the change of the distribution within the step.", "quantifier": "every distribution, kernel, rate and step size", "why_tests_cant": "Continuous unbounded inputs.", "anchors": ["adept/driftdiffusion.py:AbstractKernelBasedModel", "adept/driftdiffusion.py:LogMeanFlux", "adept/vfp1d/fokker_planck.py:CoulombianKernel"]}
{"id": "C74", "title": "The equilibria of the isotropic collisions are the Maxwellians", "statement": "The distributions left unchanged by a collision step are exactly the Maxwellians, for each kernel model and differencing scheme.", "quantifier": "every distribution, rate and step size", "why_tests_cant": "Continuous unbounded inputs.", "anchors": ["adept/vfp1d/fokker_planck.py:F0Collisions", "adept/driftdiffusion.py:AbstractKernelBasedModel"]}
{"id": "C75", "title": "Laser heating heats, at the configured resonance", "statement": "Inverse bremsstrahlung heating never lowers the energy of a decreasing distribution and keeps it decreasing, a driver at zero strength is the same as none, and the electron-ion rate in the resonance factor is the one the anisotropic collisions use.", "quantifier": "every distribution, intensity, ion charge and step size", "why_tests_cant": "Continuous unbounded inputs.", "anchors": ["adept/vfp1d/fokker_planck.py:inverse_bremsstrahlung_resonance_ratio", "adept/vfp1d/fokker_planck.py:_solve_one_vslice_", "adept/vfp1d/vector_field.py"]}
{"id": "C76", "title": "Anisotropic collisions damp the harmonics", "statement": "In the scaled-rate mode each harmonic is damped by the implicit factor of the electron-ion rate: no growth, no sign change, whatever the step size; the full mode reduces to electron-ion scattering without background and is linear in the harmonic; orders outside the grid are refused.", "quantifier": "every harmonic, order, charge and step size", "why_tests_cant": "Continuous unbounded inputs.", "anchors": ["adept/vfp1d/fokker_planck.py:FLMCollisions"]}
{"id": "C77", "title": "The Coulomb logarithm is sane", "statement": "A computed Coulomb logarithm is at least 2, a given number is used as it is, equal logarithms on request, unknown methods refused.", "quantifier": "every density, temperature, charge and setting", "why_tests_cant": "Continuous inputs.", "anchors": ["adept/vfp1d/helpers.py:calc_logLambda"]}
{"id": "C78", "title": "The reduced heat fluxes are physical", "statement": "The reported Spitzer-Härm flux runs down the temperature gradient and vanishes exactly where the gradient does; both it and the SNB flux vanish at the ends of the box and only move heat around; every SNB group obeys its diffusion equation, which has exactly one solution, bounded by the mean free path times the source; with uniform temperature there is no flux; the group weights are shares of the Spitzer-Härm spectrum.", "quantifier": "every positive density, temperature and charge profile, group count and grid, planar or spherical", "why_tests_cant": "Continuous profiles of arbitrary size; uniqueness and bounds of linear systems of any size.", "anchors": ["adept/vfp1d/heat_flux.py:spitzer_harm_heat_flux", "adept/vfp1d/heat_flux.py:snb_heat_flux", "adept/vfp1d/storage.py:calc_EH"]}
{"id": "C79", "title": "VFP-2D harmonic layout", "statement": "A layout is accepted exactly when 0 <= m_max <= l_max; the packed index is a bijection between the harmonics l <= l_max, m <= min(l, m_max) and 0..size-1, any other request gives -1, and the size is (m_max+1)(2 l_max + 2 - m_max)/2.", "quantifier": "every l_max and m_max, every requested harmonic", "why_tests_cant": "Unbounded truncation orders; a bijection is a statement about all of them.", "anchors": ["adept/vfp2d/harmonics.py:HarmonicLayout"]}
{"id": "C80", "title": "VFP-2D free streaming moves particles and nothing else", "statement": "At every speed the isotropic part changes by minus a third of the speed times the divergence of the flux, and the flux by minus the divergence of the pressure tensor; over the periodic box every speed keeps its number of particles, and the square of the distribution (all harmonics, any truncation) is constant.", "quantifier": "every distribution, truncation, grid, derivative scheme and streaming speed", "why_tests_cant": "Arbitrary truncations and arrays; conservation is an algebraic identity between all the harmonics.", "anchors": ["adept/vfp2d/harmonics.py:TzoufrasVlasov.streaming"]}
{"id": "C81", "title": "VFP-2D magnetic rotation", "statement": "The magnetic field does no work: it leaves the isotropic part alone and only exchanges harmonics of one order, keeping the square of each order, and it turns the flux of the electrons as the Lorentz force does (rate B x f1).", "quantifier": "every field, distribution, speed and truncation", "why_tests_cant": "Continuous fields and unbounded truncation.", "anchors": ["adept/vfp2d/harmonics.py:TzoufrasVlasov.magnetic"]}
{"id": "C82", "title": "VFP-2D electric acceleration", "statement": "Acceleration by E conserves particles up to the flux through the top of the speed grid, does the work E.J up to a second-order term in the speed spacing and the top of the grid, and changes the momentum by -n E up to such terms, with f1 driven by E d f00/dv and the second harmonics by the tensor contraction.", "quantifier": "every field, distribution and speed grid", "why_tests_cant": "Continuous fields; discrete integration by parts on grids of any length.", "anchors": ["adept/vfp2d/harmonics.py:TzoufrasVlasov.electric"]}
{"id": "C83", "title": "VFP-2D Maxwell mode keeps the laws of electromagnetism", "statement": "Every step keeps the divergence of B exactly, keeps Gauss's law at every position up to the particles accelerated over the top of the speed grid, and the number of electrons up to the same; external fields push electrons without entering the solved fields; field energy changes only by -E.J; in vacuum waves travel at c and a step is the second-order Taylor step with the driver current at mid-step; the initial field satisfies Gauss's law for the initial charge.", "quantifier": "every state, driver, density-conserving collision operator, grid and derivative scheme", "why_tests_cant": "Identities between discrete operators on grids of any size for arbitrary fields.", "anchors": ["adept/vfp2d/vector_field.py:Maxwell2D", "adept/vfp2d/vector_field.py:SpectralPoisson2D", "adept/vfp2d/vector_field.py:VlasovMaxwell", "adept/vfp2d/vector_field.py:SplitStepVFP2D", "adept/vfp2d/base.py:init_state_and_args"]}
{"id": "C84", "title": "VFP-2D positivity limiter and current projection", "statement": "The limiter returns a real nonnegative isotropic part, keeps the density wherever it was positive, empties cells of non-positive density, keeps the shape of the positive part and every other harmonic, and leaves nonnegative distributions alone. The projection gives exactly the prescribed current, keeps density and all harmonics but l=1, is the identity when the current is already right, and is refused exactly when there is no l=1 harmonic. Real storage is lossless.", "quantifier": "every distribution, speed grid, truncation and target current", "why_tests_cant": "Continuous arrays with sign patterns of every kind.", "anchors": ["adept/vfp2d/harmonics.py:conservative_f00_positivity", "adept/vfp2d/ohm.py:project_current_moment", "adept/vfp2d/harmonics.py:complex_to_real"]}
{"id": "C85", "title": "VFP-2D kinetic Ohm law", "statement": "The pressure terms of the Ohm law are exactly the electric field that cancels the streaming contribution to the v^3-weighted flux; Hall and Nernst terms together are the magnetic term of the same balance; only the resistive term works on the current, and never negatively; a uniform plasma has no pressure field and an isotropic plasma with a hidden gradient has the closed-form z field.", "quantifier": "every distribution with normal density, every field, current, grid and derivative scheme", "why_tests_cant": "Algebraic balance between moments of arbitrary distributions.", "anchors": ["adept/vfp2d/ohm.py:KineticOhm2D", "adept/vfp2d/harmonics.py:nernst_velocity"]}
{"id": "C86", "title": "VFP-2D kinetic-Ohm step", "statement": "A step is half a step of collisions, a classical RK4 step of Faraday's law and the Vlasov equation with every stage constrained, half a step of collisions at the end time, filter and projection; the returned state carries exactly Ampere's current of the returned B and the returned E is the Ohm law's at the end time; div B is kept (filtered, when a filter is set); isotropic parts are nonnegative when asked; the number of electrons changes only through the top of the speed grid; a uniform isotropic plasma in a uniform B is returned unchanged with E = 0; it fails exactly without an l=1 harmonic.", "quantifier": "every state, collision operator, filter, heating schedule, step length and truncation", "why_tests_cant": "Composition of many operators on arbitrary arrays.", "anchors": ["adept/vfp2d/vector_field.py:KineticOhmStep"]}
{"id": "C87", "title": "VFP-2D heating switches and collision adapter", "statement": "The laser heating gate is in [0,1], is the exact window [t_on, t_off) without width and a monotone switch through 1/2 with one, and multiplies only the laser intensity; the hidden gradient has the same off switch. The collision step fails exactly when heating is given without the frequency ratio; otherwise the isotropic part becomes the operator's result on its real part, every l>=1 harmonic is advanced by the operator of its l in the new isotropic part for every m, and what has no operator is unchanged.", "quantifier": "every schedule, time, operator, layout and distribution", "why_tests_cant": "Continuous time; arbitrary operators and truncations.", "anchors": ["adept/vfp2d/vector_field.py:_ib_gate", "adept/vfp2d/vector_field.py:KineticOhmStep._hidden_dndz", "adept/vfp2d/collisions.py:CollisionStep", "adept/vfp2d/collisions.py:AnisotropicCollisions"]}
{"id": "C88", "title": "VFP-2D filters and arrays divided among devices", "statement": "The Hou-Li filter multiplies each wave by exp(-alpha (2|p|/N)^(2 order)), keeps the mean and reality, never increases the sum of squares, and commutes with every derivative. On an array divided among devices, derivatives and filters give the same result as on one device, whatever the number of devices; a mesh is accepted exactly when the axis is x and the number of cells is a multiple of the number of devices.", "quantifier": "every array, size, order, strength and number of devices", "why_tests_cant": "Arbitrary device counts and arrays.", "anchors": ["adept/vfp2d/harmonics.py:HouLiFilter2D", "adept/vfp2d/harmonics.py:periodic_central_derivative", "adept/vfp2d/harmonics.py:partitioned_high_order_filter", "adept/vfp2d/distributed.py:create_spatial_sharding"]}
{"id": "C89", "title": "VFP-2D run set-up", "statement": "The run ends at or after the requested time by less than one step, with the least number of steps that covers it; exact multiples are kept; exactly the modes maxwell and kinetic-ohm are accepted.", "quantifier": "every tmin, tmax, dt and mode string", "why_tests_cant": "Real-valued times; every string.", "anchors": ["adept/vfp2d/base.py:BaseVFP2D"]}
{"id": "C90", "title": "Vlasov-2D particle number", "statement": "Streaming and the spectral acceleration keep the number of particles of every species (the acceleration keeps the density at every position); collisions keep the density; the filter keeps the number. Over a whole step, whatever the fields, particles can be gained or lost only in the magnetic rotation, and without a magnetic field a run keeps them. The rotation and the semi-Lagrangian acceleration do lose particles (the claimed conservation is false with a magnetic field).", "quantifier": "every distribution, grid, field, driver, collision frequency, filter and number of steps", "why_tests_cant": "Arbitrary arrays and unbounded numbers of steps.", "anchors": ["adept/_vlasov2d/solvers/pushers/vlasov.py", "adept/_vlasov2d/solvers/vector_field.py:TimeIntegrator.kinetic_substep"]}
{"id": "C91", "title": "Vlasov-2D characteristics", "statement": "The magnetic rotation gives every grid velocity the interpolated old value at the start of the orbit of dv/dt=(q/m) v x B that ends there, at the same speed; the semi-Lagrangian acceleration at the start of the orbit of dv/dt=(q/m)E; a quarter gyration is exact on a square velocity grid. Velocity axes are distinct, symmetric, cell centred.", "quantifier": "every charge, mass, field, time step, grid and interpolation that reproduces nodes", "why_tests_cant": "Every orbit of a differential equation.", "anchors": ["adept/_vlasov2d/solvers/pushers/vlasov.py:VelocityRotateB", "adept/_vlasov2d/solvers/pushers/vlasov.py:VelocitySL2DE"]}
{"id": "C92", "title": "Vlasov-2D free streaming and reversibility", "statement": "Without fields every resolved wave of every velocity class moves with exactly that velocity over a step; velocities that cross whole cells in half a step move by whole cells; a kinetic step in an electric field is undone by the step with -dt (odd grids, no magnetic field).", "quantifier": "every distribution, wave, grid and time step", "why_tests_cant": "All waves of all distributions.", "anchors": ["adept/_vlasov2d/solvers/pushers/vlasov.py:SpaceExponentialX", "adept/_vlasov2d/solvers/pushers/vlasov.py:SpaceExponentialY"]}
{"id": "C93", "title": "Vlasov-2D Maxwell step", "statement": "One Maxwell step changes the field energy (with a fixed O(dt^2) correction) by the work of the current and by nothing else, conserves it in vacuum, is undone by -dt with the same current, changes div E only by the divergence of the current, keeps the magnetic flux and changes the mean electric field only by the mean current.", "quantifier": "every field, current, grid, speed of light and time step", "why_tests_cant": "Arbitrary arrays.", "anchors": ["adept/_vlasov2d/solvers/pushers/field.py:MaxwellSpectral"]}
{"id": "C94", "title": "Vlasov-2D Maxwell stability", "statement": "Below c dt sqrt((pi/dx)^2+(pi/dy)^2) < 2 vacuum fields stay bounded for ever and every resolved standing wave oscillates with the leapfrog dispersion relation; above it the field grows geometrically. The time step cap 0.5 min(dx,dy)/c of the grid, documented as ensuring stability, is above the limit: on a 32x32 grid the energy of the corner mode grows without bound.", "quantifier": "every grid, time step, field and number of steps", "why_tests_cant": "Unbounded time.", "anchors": ["adept/_vlasov2d/grid.py:Grid", "adept/_vlasov2d/solvers/pushers/field.py:MaxwellSpectral"]}
{"id": "C95", "title": "Vlasov-2D Gauss's law", "statement": "Over a step the error of Gauss's law changes exactly by the failure of the discrete continuity equation between the charge and the current of the moved distribution. It does not vanish: a run that starts with Gauss's law satisfied does not keep it.", "quantifier": "every state, driver, grid, collision model", "why_tests_cant": "Arbitrary arrays.", "anchors": ["adept/_vlasov2d/solvers/vector_field.py:VlasovMaxwell", "adept/_vlasov2d/solvers/pushers/field.py:CurrentMoments"]}
{"id": "C96", "title": "Vlasov-2D collisions", "statement": "Both collision operators keep the density at every position; the Dougherty operator changes the momentum of a column only through the end cells and has an explicit energy budget (not exact conservation); resolved columns have a unique nonnegative solution; Krook approaches a Maxwellian of the same density with factor exp(-nu dt) - of unit variance whatever the species' temperature and mass. Only the type dougherty is accepted.", "quantifier": "every distribution, frequency, velocity grid and time step", "why_tests_cant": "Arbitrary arrays.", "anchors": ["adept/_vlasov2d/solvers/pushers/fokker_planck.py"]}
{"id": "C97", "title": "Vlasov-2D initial density", "statement": "The initial density of a species equals its density profile at every position, for any number of components. With an initialization divided over velocity devices it does not hold of each device's piece: every piece carries the same share.", "quantifier": "every component list, profile, velocity grid and device count", "why_tests_cant": "Real-valued parameters, any number of devices.", "anchors": ["adept/_vlasov2d/helpers.py"]}
{"id": "C98", "title": "Vlasov-2D initial fields", "statement": "A single species of charge -1 starts neutral and field free; a single species of charge q starts with charge (q+1) n; the initial electric field is curl free, mean free, and its divergence is the charge minus its mean.", "quantifier": "every species list, profile and grid", "why_tests_cant": "Arbitrary arrays.", "anchors": ["adept/_vlasov2d/modules.py:BaseVlasov2D.init_state_and_args"]}
{"id": "C99", "title": "Vlasov-2D distribution sharding options", "statement": "A sharding is accepted exactly when the partition has four entries naming known mesh axes, there is a device, and the mesh shape has as many entries as axes with product the number of devices; without a shape all devices go to the first axis. Divided initialization refuses noise of nonzero strength and nothing else.", "quantifier": "every option value and number of devices", "why_tests_cant": "All strings, lists and device counts.", "anchors": ["adept/_vlasov2d/distributed.py:create_distribution_sharding"]}
{"id": "C100", "title": "Vlasov-2D drivers", "statement": "The driven current is the sum over drivers, is the second time derivative of a travelling wave under a constant envelope, is taken in the middle of the step, reported in the state, and enters dE/dt with a minus sign; with skip_maxwell the fields do not change but the currents are reported.", "quantifier": "every driver list, time, grid", "why_tests_cant": "Real-valued times.", "anchors": ["adept/_vlasov2d/solvers/pushers/field.py:EMDriverFieldSource", "adept/_vlasov2d/solvers/vector_field.py:VlasovMaxwell"]}
{"id": "C101", "title": "Vlasov-2D Hou-Li filter", "statement": "Along either or both axes the filter keeps the number of particles and never increases the sum of squares.", "quantifier": "every distribution, strength >= 0, order >= 1", "why_tests_cant": "Arbitrary arrays.", "anchors": ["adept/_vlasov2d/solvers/pushers/vlasov.py:HouLiFilter"]}
{"id": "C102", "title": "Vlasov-2D moments and equilibria", "statement": "The saved density, flow and temperature reproduce the momentum and kinetic energy of the distribution; mean density is the number of particles over the cells; energies and temperatures are nonnegative; a homogeneous plasma without fields and net current stays unchanged for ever; species without drift carry no current.", "quantifier": "every distribution and number of steps", "why_tests_cant": "Unbounded time, arbitrary arrays.", "anchors": ["adept/_vlasov2d/storage.py", "adept/_vlasov2d/modules.py"]}
{"id": "C103", "title": "Hermite-Poisson free streaming", "statement": "For the eigendecomposition any eigensolver may return, the streaming step is exact and reversible (steps of s and t make a step of s+t, zero time changes nothing), keeps the mean of every coefficient and the squared norm of every Fourier mode, keeps real distributions real away from the Nyquist mode, and moves every represented moment as free particles do: d/dt <basis_n> = -ik <v basis_n> except in the last coefficient.", "quantifier": "every coefficient array, number of modes and cells, thermal speed, drift, time and eigenvector choice", "why_tests_cant": "Uncountably many states; the eigensolver's choice of basis is unknown.", "anchors": ["adept/_hermite_poisson_1d/vector_field.py:FreeStreamingExp1D"]}
{"id": "C104", "title": "Hermite-Poisson damping", "statement": "Collisions, diffusion and filter damp each coefficient exactly exponentially at nonnegative rates; both collision models leave density, momentum and energy coefficients alone and every other model name is refused; the default filter leaves the density alone; the combined linear step is the flow of the sum of its parts.", "quantifier": "every coefficient array, model, strength, profile and time", "why_tests_cant": "Real-valued parameters and arrays.", "anchors": ["adept/_hermite_poisson_1d/vector_field.py:DiagonalExp1D", "adept/_hermite_poisson_1d/vector_field.py:LinearExp1D", "adept/_hermite_poisson_1d/modules.py:_collision_profile"]}
{"id": "C105", "title": "Hermite-Poisson force substep", "statement": "With enough series terms and no mask, the force substep is exactly the shift of the distribution by Omega dt a(x) in velocity at every position, whatever distribution the coefficients represent; it composes and can be undone; the density never changes; with the mask everything beyond it is deleted; the other integrator's coupling is the derivative of that shift.", "quantifier": "every coefficient array, acceleration, time step", "why_tests_cant": "Holds for all polynomial moments and all fields.", "anchors": ["adept/_hermite_poisson_1d/vector_field.py:_exp_force_substep", "adept/_hermite_poisson_1d/vector_field.py:_hermite_e_coupling"]}
{"id": "C106", "title": "Hermite-Poisson Gauss's law", "statement": "The electric field solves Gauss's law in every resolved Fourier mode, has no mean and no Nyquist part, is the only such field, and does no net work on its own charge; the density used is the zeroth moment of the represented distribution.", "quantifier": "every charge density and grid", "why_tests_cant": "Arbitrary arrays.", "anchors": ["adept/_hermite_poisson_1d/vector_field.py:PoissonSolver1D"]}
{"id": "C107", "title": "Hermite-Poisson conservation over a run", "statement": "Without a filter on the density, every run keeps the number of electrons and of ions; an isolated plasma keeps its total momentum; static ions never change; for both integrators, with or without the 2/3 mask, collisions, any number of steps. Lawson's method is the classical Runge-Kutta method in the variable that follows the linear flow.", "quantifier": "every initial state, setup, number of steps", "why_tests_cant": "Unbounded number of steps.", "anchors": ["adept/_hermite_poisson_1d/vector_field.py:HermitePoisson1DVectorField", "adept/_hermite_poisson_1d/modules.py"]}
{"id": "C108", "title": "Hermite-Poisson equilibrium", "statement": "A uniform plasma without drivers and noise stays exactly as it is and no field appears, for ever, with either integrator, collisions, sponge, mask or linear response.", "quantifier": "every setup and number of steps", "why_tests_cant": "Unbounded number of steps.", "anchors": ["adept/_hermite_poisson_1d/vector_field.py:HermitePoisson1DVectorField"]}
{"id": "C109", "title": "Hermite-Poisson ponderomotive force", "statement": "The ponderomotive acceleration does not depend on the sign of the charge, is -(q/m)^2 d/dx(a^2/2), exact in the interior for quadratic a^2 and linear ones at the ends.", "quantifier": "every vector potential and charge", "why_tests_cant": "Arbitrary fields.", "anchors": ["adept/_hermite_poisson_1d/vector_field.py:HermitePoisson1DVectorField"]}
{"id": "C110", "title": "Hermite-Poisson options", "statement": "In linear response the force changes only the first coefficient, by the force times the equilibrium density, and the whole step obeys superposition; the density limit clips into [0, max] and changes nothing inside; exactly the two integrators are accepted and linear response needs an equilibrium. Every option acts with every integrator.", "quantifier": "every state, setup and option value", "why_tests_cant": "Quantifies over all pairs of states.", "anchors": ["adept/_hermite_poisson_1d/vector_field.py:HermitePoisson1DVectorField.__init__", "adept/_hermite_poisson_1d/vector_field.py:HermitePoisson1DVectorField._strang_exp_step", "adept/_hermite_poisson_1d/vector_field.py:HermitePoisson1DVectorField._lawson_step"]}
{"id": "C111", "title": "Hermite-Poisson drivers", "statement": "Pulses add up in any order. A point source sustains, in vacuum, outgoing waves of amplitude a0 up to the grid factor (w dx/c)/sin(k dx), which tends to one; an extended source has the same integrated strength whatever its envelope and, phase matched, radiates the same amplitude to the right; a source is refused exactly when it is extended and its envelope has no positive integral.", "quantifier": "every pulse list, grid, envelope and time", "why_tests_cant": "Real parameters; exact solutions of the difference equations.", "anchors": ["adept/_hermite_poisson_1d/vector_field.py:TransverseWaveDriver", "adept/_hermite_poisson_1d/vector_field.py:LongitudinalElectricFieldDriver", "adept/_base_.py:get_envelope"]}
{"id": "C112", "title": "Hermite-Poisson initial state", "statement": "The initial electron density is n0, or n0 (1 + eps cos(2 pi m x / L)) for the requested mode m.", "quantifier": "every density, amplitude, mode and grid", "why_tests_cant": "All modes and grids.", "anchors": ["adept/_hermite_poisson_1d/modules.py:BaseHermitePoisson1D.init_state_and_args"]}
{"id": "C113", "title": "Hermite-Poisson sponge", "statement": "The plasma sponge damps at each position every coefficient except the density, the field sponge the interior of the vector potential only, and with nonnegative profiles nothing grows.", "quantifier": "every profile, state and time step", "why_tests_cant": "Arbitrary profiles.", "anchors": ["adept/_hermite_poisson_1d/vector_field.py:HermitePoisson1DVectorField._apply_sponge"]}
{"id": "C128", "title": "Hermite-Poisson whole step", "statement": "Without damping and mask the Strang step is exactly time-reversible when the light field is straight in time, and moves particles without charge exactly as free particles; the light of a whole step follows the wave an antenna radiates in vacuum with no lag.", "quantifier": "every setup, state, driver, field and time step", "why_tests_cant": "Quantifies over all states and antenna arrays.", "anchors": ["adept/_hermite_poisson_1d/vector_field.py:HermitePoisson1DVectorField._strang_exp_step", "adept/_hermite_poisson_1d/vector_field.py:HermitePoisson1DVectorField._lawson_step", "adept/_hermite_poisson_1d/vector_field.py:HermitePoisson1DVectorField.__call__"]}
{"id": "C114", "title": "Hermite-Legendre basis constants", "statement": "The Legendre functions of the mixed solver are orthonormal on the velocity window with degree m and positive leading sign; its velocity and derivative matrices are the matrices of multiplication by v and of d/dv in that basis, and its boundary values are the values at the window's ends.", "quantifier": "every window and every number of modes", "why_tests_cant": "Quantifies over all modes and windows.", "anchors": ["adept/_hermite_legendre_1d/vector_field.py:legendre_constants", "adept/_hermite_legendre_1d/vector_field.py:_legendre_basis_values"]}
{"id": "C115", "title": "Hermite-Legendre moments", "statement": "The moment map of the mixed solver gives exactly the density, momentum and kinetic energy, as velocity integrals, of the distribution function the coefficients stand for.", "quantifier": "all coefficients, basis parameters and windows, at least three modes of each kind", "why_tests_cant": "An identity between integrals over all coefficients.", "anchors": ["adept/_hermite_legendre_1d/vector_field.py:mixed_moment_matrix", "adept/_hermite_legendre_1d/vector_field.py:_hermite_function_values"]}
{"id": "C116", "title": "Hermite-Legendre linear step", "statement": "Streaming over any time is the exact solution of the Galerkin free-streaming equations of both expansions; the edge absorbers only damp, leave the first three modes alone, and the means of the first three coefficients of both expansions are unchanged.", "quantifier": "all coefficients, times, absorber strengths and grids", "why_tests_cant": "Quantifies over all states and times.", "anchors": ["adept/_hermite_legendre_1d/vector_field.py:StreamingExp1D", "adept/_hermite_legendre_1d/vector_field.py:DiagonalCollisionExp1D", "adept/_hermite_legendre_1d/vector_field.py:CombinedLinearExp1D"]}
{"id": "C117", "title": "Hermite-Legendre Poisson field", "statement": "The field satisfies Gauss's law at every resolved wavenumber for the charge 1 - density, has zero mean and exerts no net force; the potential is the one whose negative gradient it is.", "quantifier": "all coefficients and grids", "why_tests_cant": "Quantifies over all states and wavenumbers.", "anchors": ["adept/_hermite_legendre_1d/vector_field.py:PoissonSolver1D"]}
{"id": "C118", "title": "Hermite-Legendre force terms", "statement": "The Hermite and Legendre force terms are the Galerkin projections of E df/dv, the window's ends handled by the penalty; the coupling term hands on to the Legendre modes exactly what the truncated Hermite expansion loses; with penalty 1/2 on all modes the Legendre force operator is skew-symmetric; without penalty on the first three modes they change density, momentum and energy as the force E does.", "quantifier": "all coefficients, fields, penalties and windows", "why_tests_cant": "Quantifies over all states and fields.", "anchors": ["adept/_hermite_legendre_1d/vector_field.py:_hermite_force", "adept/_hermite_legendre_1d/vector_field.py:_legendre_force", "adept/_hermite_legendre_1d/vector_field.py:_cross_coupling", "adept/_hermite_legendre_1d/vector_field.py:legendre_force_operator"]}
{"id": "C119", "title": "Hermite-Legendre implicit force solves", "statement": "The Cayley and IMEX substeps solve the implicit midpoint and implicit Euler equations of the force operators, by whichever branch (scan, skew eigenvectors, Woodbury); the skew branch keeps the norm of the Legendre coefficients.", "quantifier": "all fields, steps and coefficients for which the systems are solvable", "why_tests_cant": "Quantifies over all coefficients and fields.", "anchors": ["adept/_hermite_legendre_1d/vector_field.py:hermite_cayley_update", "adept/_hermite_legendre_1d/vector_field.py:legendre_cayley_update", "adept/_hermite_legendre_1d/vector_field.py:HermiteLegendre1DVectorField._implicit_E_substep"]}
{"id": "C120", "title": "Hermite-Legendre split run conserves", "statement": "With enforcement and no driver, a run with the split integrator keeps particle number, momentum and total energy exactly over any number of steps, with or without collisions; the correction is the smallest one, and the scheme is the documented one between.", "quantifier": "all states, step counts, time steps, collision models", "why_tests_cant": "Quantifies over all runs.", "anchors": ["adept/_hermite_legendre_1d/vector_field.py:HermiteLegendre1DVectorField._split_step", "adept/_hermite_legendre_1d/vector_field.py:HermiteLegendre1DVectorField._conservation_correct"]}
{"id": "C121", "title": "Hermite-Legendre BGK collisions", "statement": "The BGK collisions relax the distribution exactly exponentially at rate nu to the Maxwellian of its own density, velocity and temperature, keep those moments at every position, are a flow in time, and leave Maxwellians alone.", "quantifier": "all coefficients with positive density and temperature above the floor", "why_tests_cant": "Quantifies over all states and times.", "anchors": ["adept/_hermite_legendre_1d/vector_field.py:ConservingBGKCollision1D"]}
{"id": "C122", "title": "Hermite-Legendre Dougherty collisions", "statement": "The Hermite part of the Dougherty collisions is the exact flow of the Fokker-Planck operator with the state's velocity and temperature; the Legendre part is Strang splitting of exact diffusion (zero flux at the window's ends) and midpoint drift; the whole map keeps density, momentum and energy at every position and leaves Maxwellians alone.", "quantifier": "all coefficients with positive density and temperature above the floor", "why_tests_cant": "Quantifies over all states and times.", "anchors": ["adept/_hermite_legendre_1d/vector_field.py:DoughertyCollision1D"]}
{"id": "C123", "title": "Hermite-Legendre explicit run conserves", "statement": "With conservation enforced the lawson and imex integrators keep the particle number, and without a driver the momentum, exactly over any number of steps, with or without collisions.", "quantifier": "all states, step counts and options with the conserving gate", "why_tests_cant": "Quantifies over all runs.", "anchors": ["adept/_hermite_legendre_1d/vector_field.py:HermiteLegendre1DVectorField._nonlinear_rhs", "adept/_hermite_legendre_1d/vector_field.py:HermiteLegendre1DVectorField.__call__"]}
{"id": "C124", "title": "Hermite-Legendre equilibrium", "statement": "A uniform plasma without driver stays exactly as it is under every integrator, when no absorber acts on it and collisions are off or it is Maxwellian.", "quantifier": "all uniform states and set-ups", "why_tests_cant": "Quantifies over all set-ups and step counts.", "anchors": ["adept/_hermite_legendre_1d/vector_field.py:HermiteLegendre1DVectorField.__call__"]}
{"id": "C125", "title": "Hermite-Legendre options", "statement": "A deck with an unknown integrator or collision model, a negative rate, fewer than one field iteration, or too few modes for what it asks is refused; others are accepted.", "quantifier": "all option strings and sizes", "why_tests_cant": "Quantifies over all decks.", "anchors": ["adept/_hermite_legendre_1d/modules.py:BaseHermiteLegendre1D.init_diffeqsolve", "adept/_hermite_legendre_1d/vector_field.py:ConservingBGKCollision1D.__init__"]}
{"id": "C126", "title": "Hermite-Legendre initial states", "statement": "Each initialisation type gives the documented distribution function: a perturbed Maxwellian; two streams v^2 exp(-v^2); a neutral bulk with a beam whose window expansion is the beam's projection; custom rows and beams; the field of the initial state is its Poisson field; other types and rows out of range are refused.", "quantifier": "all decks, grids, windows and quadrature rules", "why_tests_cant": "Quantifies over all parameters.", "anchors": ["adept/_hermite_legendre_1d/modules.py:BaseHermiteLegendre1D.init_state_and_args", "adept/_hermite_legendre_1d/modules.py:_project_legendre", "adept/_hermite_legendre_1d/modules.py:_density_profile"]}
{"id": "C127", "title": "Hermite-Legendre saved diagnostics", "statement": "The saved mass, momentum and energy are the integrals of the distribution function (and field) over the box; the high-mode fraction lies in [0, 1]; the boundary values are the largest values of the window part at its ends; the driver is the sum of its pulses.", "quantifier": "all states and mode numbers", "why_tests_cant": "Quantifies over all states.", "anchors": ["adept/_hermite_legendre_1d/storage.py:get_default_save_func", "adept/_hermite_legendre_1d/vector_field.py:HermiteLegendre1DVectorField._coefficient_diagnostics", "adept/_hermite_legendre_1d/vector_field.py:ExternalExDriver"]}
{"id": "C129", "title": "Two-fluid particle number", "statement": "The particle number of each species of the two-fluid solver is the same at every saved time, in steps and inside steps, whatever the flow, driver, closure, damping and step sizes.", "quantifier": "all states, explicit Runge-Kutta methods, step sequences and dense-output times", "why_tests_cant": "Quantifies over all runs.", "anchors": ["adept/_tf1d/solvers/pushers.py:DensityStepper", "adept/_tf1d/solvers/vector_field.py:VF.__call__"]}
{"id": "C130", "title": "Two-fluid rest and switches", "statement": "A species that is off keeps density, velocity and pressure exactly and one without trapping its trapping variable; a plasma that starts uniform, without flow and without driver, is returned unchanged at every saved time.", "quantifier": "all set-ups, runs and saved times", "why_tests_cant": "Quantifies over all runs.", "anchors": ["adept/_tf1d/solvers/vector_field.py:VF.__call__", "adept/_tf1d/modules.py:BaseTwoFluid1D.init_state_and_args"]}
{"id": "C131", "title": "Two-fluid field", "statement": "The field satisfies Gauss's law for the charge of both species at every resolved wavenumber, and accelerates each species by charge over mass times field, plus pressure gradient and advection.", "quantifier": "all states", "why_tests_cant": "Quantifies over all states and wavenumbers.", "anchors": ["adept/_tf1d/solvers/pushers.py:PoissonSolver", "adept/_tf1d/solvers/pushers.py:VelocityStepper.__call__"]}
{"id": "C132", "title": "Two-fluid drivers", "statement": "The driver field is the sum of its pulses; each pulse is within its amplitude |k0 a0|, is a travelling wave of wavenumber k0 and frequency w0+dw0 inside its windows.", "quantifier": "all pulses, positions and times", "why_tests_cant": "Quantifies over all parameters.", "anchors": ["adept/_tf1d/solvers/pushers.py:Driver"]}
{"id": "C133", "title": "Two-fluid linear waves", "statement": "The small disturbances of a uniform plasma with kinetic closure oscillate in every resolved mode and decay exactly at the tabulated damping rate of its wavenumber.", "quantifier": "every disturbance, mode and table", "why_tests_cant": "Quantifies over all disturbances and modes.", "anchors": ["adept/_tf1d/solvers/pushers.py:VelocityStepper", "adept/_tf1d/solvers/pushers.py:EnergyStepper", "adept/electrostatic.py:get_complex_frequency_table"]}
{"id": "C134", "title": "Two-fluid Bohm-Gross", "statement": "The small disturbances of a fluid species of any mass with adiabatic index gamma oscillate at the Bohm-Gross frequency w^2 = q^2 n/m + gamma p/(m n) k^2.", "quantifier": "every disturbance, mode, mass and index", "why_tests_cant": "Quantifies over all masses and modes.", "anchors": ["adept/_tf1d/solvers/pushers.py:EnergyStepper", "adept/_tf1d/solvers/vector_field.py:VF.__call__"]}
{"id": "C135", "title": "Two-fluid damping and trapping", "statement": "The Landau damping term takes energy out of the flow; trapping can only reduce the damping; the trapped fraction is carried at the phase velocity and its source is never negative.", "quantifier": "all flows, fields and trapping states", "why_tests_cant": "Quantifies over all states.", "anchors": ["adept/_tf1d/solvers/pushers.py:VelocityStepper.landau_damping_term", "adept/_tf1d/solvers/pushers.py:ParticleTrapper"]}
{"id": "C136", "title": "Two-fluid translation", "statement": "Moving the initial state and the drivers by whole cells moves the whole simulation.", "quantifier": "all states, shifts, runs", "why_tests_cant": "Quantifies over all runs.", "anchors": ["adept/_tf1d/solvers/vector_field.py:VF"]}
{"id": "C137", "title": "Two-fluid cells", "statement": "The velocity equation can be evaluated exactly for grids with an even number of cells; an odd number (above 2) is refused by the shapes.", "quantifier": "every number of cells above 2", "why_tests_cant": "Quantifies over all grid sizes.", "anchors": ["adept/_tf1d/solvers/pushers.py:VelocityStepper"]}
{"id": "C138", "title": "Electrostatic dispersion function", "statement": "The dielectric function whose root the library returns is that of the linearised Vlasov-Poisson system with a Maxwellian of the stated thermal-velocity convention; a root of it is strictly damped; roots come in left- and right-going pairs and depend on k vth/wp alone.", "quantifier": "all wavenumbers, thermal velocities, conventions and complex frequencies", "why_tests_cant": "Quantifies over a continuum.", "anchors": ["adept/electrostatic.py:plasma_dispersion", "adept/electrostatic.py:plasma_dispersion_prime", "adept/electrostatic.py:get_dispersion_function", "adept/electrostatic.py:get_roots_to_electrostatic_dispersion"]}
{"id": "C139", "title": "Vlasov-1D2V one-dimensional limit", "statement": "Integrated over the perpendicular velocity, a Vlasov-1D2V run with any of the parallel collision operators is the run of the one-dimensional solver from the integrated initial state: same fields, same potentials, same marginal distributions, step for step.", "quantifier": "all grids, species, drivers, integrators, field solvers, collision rates and numbers of steps", "why_tests_cant": "Quantifies over all runs.", "anchors": ["adept/_vlasov1d2v/solvers/vector_field.py:VlasovMaxwell2V.__call__", "adept/_vlasov1d2v/solvers/pushers/fokker_planck.py:Collisions._apply"]}
{"id": "C140", "title": "Vlasov-1D2V perpendicular slices", "statement": "Without the cylindrical operator every perpendicular slice of every species keeps its particle number through any run, so the saved mean_n and mean_Pperp never change.", "quantifier": "all runs and species", "why_tests_cant": "Quantifies over all runs.", "anchors": ["adept/_vlasov1d2v/solvers/vector_field.py:VlasovMaxwell2V.__call__", "adept/_vlasov1d2v/storage.py:get_default_save_func"]}
{"id": "C141", "title": "Vlasov-1D2V perpendicular grid and initial state", "statement": "The perpendicular centres are the cell midpoints, the weights the exact areas of the rings, the perpendicular Maxwellian is normalised on the grid, so the initial state has exactly the 1D initial state as marginal and is non-negative where that is.", "quantifier": "all cell numbers, extents, temperatures and masses", "why_tests_cant": "Quantifies over all grids.", "anchors": ["adept/_vlasov1d2v/helpers.py:_initialize_total_distribution_"]}
{"id": "C142", "title": "Vlasov-1D2V cumulative diagnostics", "statement": "The two cumulative diagnostics add up, at every saved time, to the change of the marginal of the reference species since the start; over any interval they add up to the change in the interval; without collisions the collisional one is zero.", "quantifier": "all runs and saved times", "why_tests_cant": "Quantifies over all runs.", "anchors": ["adept/_vlasov1d2v/solvers/vector_field.py:VlasovPoissonFokkerPlanck2V.__call__"]}
{"id": "C143", "title": "Cylindrical collision operator: conservation", "statement": "The cylindrical operator keeps the density at every position, and with moment restoration parallel momentum and energy, for every distribution, time step, rate, channel mix and number of substeps; the restoration is never singular on a grid of at least two distinct parallel and perpendicular velocities; mean_n is constant in every run.", "quantifier": "all distributions, rates, steps, channel weights, substeps", "why_tests_cant": "Quantifies over all states and runs.", "anchors": ["adept/_vlasov1d2v/solvers/pushers/fokker_planck.py:CylindricalLandau.apply_with_restoration", "adept/_vlasov1d2v/solvers/pushers/fokker_planck.py:CylindricalLandau.__call__"]}
{"id": "C144", "title": "Cylindrical collision operator: coefficients", "statement": "The diffusion coefficients are positive at every speed, are those of a Maxwellian field species, and the diffusion tensor is symmetric positive semi-definite for non-negative channel weights.", "quantifier": "all speeds and channel weights", "why_tests_cant": "Quantifies over a continuum.", "anchors": ["adept/_vlasov1d2v/solvers/pushers/fokker_planck.py:CylindricalLandau._psi", "adept/_vlasov1d2v/solvers/pushers/fokker_planck.py:CylindricalLandau._tensor"]}
{"id": "C145", "title": "Cylindrical collision operator: sweeps and equilibria", "statement": "Both implicit sweeps have exactly one solution for every time step, keep non-negative distributions non-negative and never increase the weighted distance from the Maxwellian; a distribution that is a multiple of the Maxwellian of its own moments is returned unchanged by the whole step.", "quantifier": "all time steps, rates and distributions", "why_tests_cant": "Quantifies over all states.", "anchors": ["adept/_vlasov1d2v/solvers/pushers/fokker_planck.py:CylindricalLandau.__call__"]}
{"id": "C146", "title": "Vlasov-1D2V options", "statement": "A deck is accepted exactly if its integrator, velocity pusher and collision type are known, the Krook term is off and there is a species called electron.", "quantifier": "all option values", "why_tests_cant": "Quantifies over all strings.", "anchors": ["adept/_vlasov1d2v/solvers/pushers/fokker_planck.py:Collisions.__init__", "adept/_vlasov1d2v/solvers/vector_field.py:VlasovPoissonFokkerPlanck2V.__init__"]}
{"id": "C147", "title": "Vlasov-1D2V honours its deck", "statement": "Every option of the deck that changes the physics of the one-dimensional solver is applied or refused.", "quantifier": "all decks", "why_tests_cant": "Quantifies over all decks.", "anchors": ["adept/_vlasov1d/datamodel.py", "adept/_vlasov1d2v/solvers/vector_field.py:VlasovMaxwell2V.__call__"]}
{"id": "C148", "title": "Spectrax: moment equations are the Vlasov equation", "statement": "The right-hand side of the Hermite-Fourier coefficients of a species is the Galerkin projection of the Vlasov equation: streaming, the Lorentz force of the (2/3-masked) fields on the (masked) distribution; number, momentum and energy moments change exactly as under the force, the magnetic field does no work.", "quantifier": "all coefficient arrays, mode counts, drifts, anisotropic thermal speeds, fields, wave vectors", "why_tests_cant": "Quantifies over all distributions and fields.", "anchors": ["adept/_spectrax1d/hermite_fourier_ode.py:HermiteFourierODE._compute_rhs", "adept/_spectrax1d/hermite_fourier_ode.py:HermiteFourierODE._compute_lorentz_rhs"]}
{"id": "C149", "title": "Spectrax: particle number", "statement": "The number of particles of each species (the mean density coefficient) is the same at every step end and every saved time of every run of either integrator, with collisions, diffusion, filters, sponges and drivers.", "quantifier": "all runs, step sizes, Runge-Kutta methods", "why_tests_cant": "Quantifies over all runs.", "anchors": ["adept/_spectrax1d/vector_field.py:SpectraxVectorField.__call__", "adept/_spectrax1d/integrators.py:SplitStepDampingSolver"]}
{"id": "C150", "title": "Spectrax: Gauss's law", "statement": "If Gauss's law holds initially it holds at all times of a run without diffusion, density noise, field driver and field sponge.", "quantifier": "all runs of both integrators", "why_tests_cant": "Quantifies over all runs.", "anchors": ["adept/_spectrax1d/vector_field.py:SpectraxVectorField.__call__", "adept/_spectrax1d/nonlinear_vector_field.py:NonlinearVectorField.__call__", "adept/_spectrax1d/integrators.py:LawsonRK4Solver.step"]}
{"id": "C151", "title": "Spectrax: divergence of B", "statement": "The divergence of the magnetic field at every wave vector keeps its initial value in every run without field sponge.", "quantifier": "all runs of both integrators", "why_tests_cant": "Quantifies over all runs.", "anchors": ["adept/_spectrax1d/vector_field.py:SpectraxVectorField.__call__", "adept/_spectrax1d/exponential_operators.py:MaxwellExponential.apply"]}
{"id": "C152", "title": "Spectrax: vacuum propagation", "statement": "The Maxwell exponential is the exact solution of the vacuum Maxwell equations for every time and wave vector: it satisfies the differential equation, composes, keeps energy, divergences and longitudinal fields.", "quantifier": "all wave vectors, fields, times", "why_tests_cant": "Quantifies over a continuum.", "anchors": ["adept/_spectrax1d/exponential_operators.py:MaxwellExponential.apply"]}
{"id": "C153", "title": "Spectrax: linear exponential", "statement": "The combined exponential is the exact flow of the linear terms of the explicit equations, so both integrators solve the same equations; applications compose.", "quantifier": "all states, times, collision rates, filters", "why_tests_cant": "Quantifies over a continuum.", "anchors": ["adept/_spectrax1d/exponential_operators.py:CombinedLinearExponential.apply", "adept/_spectrax1d/exponential_operators.py:FreeStreamingExponential.apply"]}
{"id": "C154", "title": "Spectrax: Lawson step", "statement": "The exponential step is the classical fourth-order Runge-Kutta step in the interaction picture of the linear flow, exact for any step size when the nonlinear terms vanish; its error estimate is the difference of Simpson's and the trapezoidal rule for time-dependent forcing.", "quantifier": "all states and step sizes", "why_tests_cant": "Quantifies over all states and steps.", "anchors": ["adept/_spectrax1d/integrators.py:LawsonRK4Solver.step"]}
{"id": "C155", "title": "Spectrax: real fields stay real", "statement": "Distributions and fields that are real in space stay real at all step ends and saved times of every run.", "quantifier": "all grids, runs, filters, sponges, drivers, collisions", "why_tests_cant": "Quantifies over all runs.", "anchors": ["adept/_spectrax1d/vector_field.py:SpectraxVectorField.__call__", "adept/_spectrax1d/exponential_operators.py:CombinedLinearExponential.apply"]}
{"id": "C156", "title": "Spectrax: energy budget", "statement": "Along solutions of the explicit equations kinetic plus field energy changes only by the work in modes outside the 2/3 mask; it is conserved when those are empty, with collisions and diffusion on.", "quantifier": "all solutions with at least three modes per direction", "why_tests_cant": "Quantifies over all solutions.", "anchors": ["adept/_spectrax1d/hermite_fourier_ode.py:HermiteFourierODE._compute_rhs", "adept/_spectrax1d/vector_field.py:SpectraxVectorField.__call__"]}
{"id": "C157", "title": "Spectrax: initial state", "statement": "The initial electron density is 1 + dn sin(k.x) and the initial field satisfies Gauss's law, for every mode numbers the deck may give.", "quantifier": "all mode numbers, thermal speeds, box sizes, amplitudes", "why_tests_cant": "Quantifies over all decks.", "anchors": ["adept/_spectrax1d/base_module.py:fft_index", "adept/_spectrax1d/base_module.py:BaseSpectrax1D.get_solver_quantities"]}
{"id": "C158", "title": "Spectrax: static ions", "statement": "With static ions every ion coefficient keeps its initial value in every run.", "quantifier": "all runs of both integrators", "why_tests_cant": "Quantifies over all runs.", "anchors": ["adept/_spectrax1d/vector_field.py:SpectraxVectorField.__call__", "adept/_spectrax1d/exponential_operators.py:CombinedLinearExponential.apply"]}
{"id": "C159", "title": "Spectrax: collisions", "statement": "The collision matrix is non-negative, zero on density, flow and temperature modes, one at the last mode; collisions and diffusion never increase any coefficient.", "quantifier": "all mode counts, rates, times, arrays", "why_tests_cant": "Quantifies over all arrays.", "anchors": ["adept/_spectrax1d/base_module.py:BaseSpectrax1D._compute_hermite_parameters", "adept/_spectrax1d/exponential_operators.py:DiagonalExponential.apply"]}
{"id": "C160", "title": "Spectrax: saved states are solver states", "statement": "The state saved for the time of a step end is the state the solver continues from.", "quantifier": "all runs", "why_tests_cant": "Quantifies over all runs.", "anchors": ["adept/_spectrax1d/integrators.py:SplitStepDampingSolver.step"]}
{"id": "C161", "title": "Spectrax: saved quantities", "statement": "Saved densities, flows, temperatures, currents, field energies and coordinates are those of the state.", "quantifier": "all states", "why_tests_cant": "Quantifies over all states.", "anchors": ["adept/_spectrax1d/storage.py:get_moments_save_func", "adept/_spectrax1d/storage.py:get_default_save_func"]}
{"id": "C162", "title": "Spectrax: time grid and defaults", "statement": "The run covers the requested time in whole steps and overshoots by at most one; the step limit leaves room; equal options mean the same in all parts of the solver.", "quantifier": "all times, steps, options", "why_tests_cant": "Quantifies over all decks.", "anchors": ["adept/_spectrax1d/base_module.py:BaseSpectrax1D.get_derived_quantities", "adept/_spectrax1d/base_module.py:BaseSpectrax1D.init_diffeqsolve"]}
{"id": "C163", "title": "Spectrax: driver", "statement": "The driven field is the sum of the pulses at every grid point, real and bounded by the sum of |k0 a0|.", "quantifier": "all pulses, grids, times", "why_tests_cant": "Quantifies over all decks and times.", "anchors": ["adept/_spectrax1d/driver.py:Driver.__call__"]}
{"id": "C164", "title": "Envelope solver: wave energy", "statement": "In every run without noise and two-plasmon source the recorded plasma-wave energy never grows; it decays at least at twice the collision rate, whatever the density profile, boundaries and filter.", "quantifier": "all grids, profiles, filters, boundaries, states, numbers of steps", "why_tests_cant": "Quantifies over all states and runs.", "anchors": ["adept/_lpse2d/core/epw.py:SpectralEPWSolver.__call__", "adept/_lpse2d/helpers.py:get_default_save_func"]}
{"id": "C165", "title": "Envelope solver: plasma waves are exact", "statement": "In a uniform periodic plasma every retained wave oscillates at the Bohm-Gross frequency and is damped at the textbook Landau rate plus the collision rate, exactly for every step size and number of steps.", "quantifier": "all modes, temperatures, densities, step sizes, runs", "why_tests_cant": "Quantifies over all modes and runs.", "anchors": ["adept/_lpse2d/core/epw.py:SpectralEPWSolver.__call__", "adept/_lpse2d/core/epw.py:SpectralEPWSolver.calc_landau_damping_rate"]}
{"id": "C166", "title": "Envelope solver: potential and field", "statement": "Going from potential to field and back changes nothing but the mean and the filtered modes; the mean potential and filtered modes are zero after every step, with every source on.", "quantifier": "all potentials, grids, runs", "why_tests_cant": "Quantifies over all arrays.", "anchors": ["adept/_lpse2d/core/epw.py:SpectralEPWSolver.phi_k_to_e_fields", "adept/_lpse2d/core/epw.py:SpectralEPWSolver.e_fields_to_phi_k"]}
{"id": "C167", "title": "Envelope solver: two-plasmon decay", "statement": "A plane pump couples each plasma wave k to k0 - k only, at the textbook two-plasmon rate; both daughters gain equal energy (Manley-Rowe), the rate is at most k0 v_osc / 2, and waves along the pump are not driven.", "quantifier": "all waves, pump amplitudes, phases, times", "why_tests_cant": "Quantifies over all waves and amplitudes.", "anchors": ["adept/_lpse2d/core/epw.py:SpectralEPWSolver.calc_tpd_source"]}
{"id": "C168", "title": "Envelope solver: dealiasing", "statement": "With the shifted band, two retained waves are only coupled when their wave numbers really add up to the pump's; a pump without room on the grid, and an unknown option, are refused.", "quantifier": "all grids, pump colours, cut-offs", "why_tests_cant": "Quantifies over all grids and pumps.", "anchors": ["adept/_lpse2d/helpers.py:get_solver_quantities", "adept/_lpse2d/helpers.py:_pump_k_support"]}
{"id": "C169", "title": "Envelope solver: pump", "statement": "Each colour is the plane wave nearest to the dispersion relation; the x-averaged intensity in a uniform plasma is the configured one times the swelling, and the pump field at each step is the envelope at its start times the laser, independent of history.", "quantifier": "all colours, phases, times, histories", "why_tests_cant": "Quantifies over all pumps, times and histories.", "anchors": ["adept/_lpse2d/core/laser.py:Light.laser_update", "adept/_lpse2d/core/vector_field.py:SplitStep.__call__"]}
{"id": "C170", "title": "Envelope solver: laser spectra", "statement": "The spectra of the driver shapes are normalised, positive, symmetric and have the configured width; every advertised shape runs, can be saved and loaded again.", "quantifier": "all widths, numbers of colours, parameters, file names", "why_tests_cant": "Quantifies over all parameters.", "anchors": ["adept/_lpse2d/modules/driver.py:UniformDriver", "adept/_lpse2d/modules/driver.py:GaussianDriver", "adept/_lpse2d/modules/driver.py:LorentzianDriver", "adept/_lpse2d/modules/driver.py:ArbitraryDriver", "adept/_lpse2d/modules/driver.py:load"]}
{"id": "C171", "title": "Envelope solver: options take effect", "statement": "Every switch of the terms section and every driver section of the deck changes the equations as documented.", "quantifier": "all decks", "why_tests_cant": "Quantifies over all decks.", "anchors": ["adept/_lpse2d/core/epw.py:SpectralEPWSolver.__init__", "adept/_lpse2d/core/vector_field.py:SplitStep.__init__"]}
{"id": "C172", "title": "Envelope solver: density profiles", "statement": "A linear profile spans the requested densities with the requested scale length at quarter critical; the other profiles give the requested density at every cell.", "quantifier": "all profile parameters and grids", "why_tests_cant": "Quantifies over all decks.", "anchors": ["adept/_lpse2d/helpers.py:get_density_profile", "adept/_lpse2d/helpers.py:get_derived_quantities"]}
{"id": "C173", "title": "Envelope solver: filter and boundaries", "statement": "Low-pass filter and absorbing boundaries only attenuate; untapered filters keep or remove; periodic boundaries change nothing; so every accepted deck meets the assumptions of C164.", "quantifier": "all widths, cut-offs, tapers, positions", "why_tests_cant": "Quantifies over all decks and modes.", "anchors": ["adept/_lpse2d/helpers.py:get_solver_quantities"]}
{"id": "C174", "title": "Envelope solver: saved quantities", "statement": "Recorded energy and maximum, stored fields and axes are those of the state.", "quantifier": "all states and save decks", "why_tests_cant": "Quantifies over all states.", "anchors": ["adept/_lpse2d/helpers.py:make_field_xarrays", "adept/_lpse2d/helpers.py:get_save_quantities", "adept/_lpse2d/helpers.py:get_default_save_func"]}
{"id": "C175", "title": "Speckle: power and periodicity", "statement": "The mean focal intensity equals the sum of the beamlets' intensities at all times; the field never exceeds the sum of amplitudes; the pattern repeats with the spot width; SSD shares the bandwidth and runs the configured colour cycles.", "quantifier": "all beamlet numbers, plates, smoothing, samplings, times", "why_tests_cant": "Quantifies over all patterns.", "anchors": ["adept/_lpse2d/core/speckle.py:SpeckleProfile.generate_speckle_pattern", "adept/_lpse2d/core/speckle.py:SpeckleProfile.beamlets_complex_amplitude"]}
{"id": "C176", "title": "Speckle: time series", "statement": "The stored series covers all times the smoothing asks for: no look-up leaves it or is clamped during the run; the series has the requested rms and a Gaussian spectrum about zero frequency with the requested full width at half maximum; the constructor accepts exactly the documented options.", "quantifier": "all durations, bandwidths, delays, beamlets", "why_tests_cant": "Quantifies over a continuum of times.", "anchors": ["adept/_lpse2d/core/speckle.py:SpeckleProfile._init_gaussian_time_series", "adept/_lpse2d/core/speckle.py:gen_gaussian_time_series", "adept/_lpse2d/core/speckle.py:SpeckleProfile.__init__"]}
{"id": "C177", "title": "Speckle: intensity of the pump", "statement": "The speckled pump has the configured mean intensity.", "quantifier": "all patterns and sample sets", "why_tests_cant": "Quantifies over all patterns.", "anchors": ["adept/_lpse2d/core/laser.py:Light.__init__", "adept/_lpse2d/core/laser.py:Light.laser_update"]}
{"id": "C178", "title": "Envelope solver: superposition and translation", "statement": "With a given pump the plasma waves superpose (real-linearly, two-plasmon source included); where nothing depends on y, runs commute with translations along y.", "quantifier": "all states, runs, shifts", "why_tests_cant": "Quantifies over all states and runs.", "anchors": ["adept/_lpse2d/core/epw.py:SpectralEPWSolver.__call__", "adept/_lpse2d/core/vector_field.py:SplitStep.__call__"]}
{"id": "C179", "title": "Envelope solver: quiet start", "statement": "Without the noise source nothing grows out of nothing: plasma waves started by the solver stay exactly zero with every pump and profile, and the Raman field is zero in every run.", "quantifier": "all pumps, profiles, numbers of steps", "why_tests_cant": "Quantifies over all runs.", "anchors": ["adept/_lpse2d/modules/base.py:BaseLPSE2D.init_state_and_args", "adept/_lpse2d/core/vector_field.py:SplitStep.__call__"]}
{"id": "C180", "title": "Envelope solver: units", "statement": "Derived units mean what they say: field amplitude carries the configured intensity, critical and envelope densities match the frequencies, thermal speed matches the temperature; every collisions value of the deck is accepted and uses one Coulomb logarithm.", "quantifier": "all temperatures, wavelengths, intensities, densities", "why_tests_cant": "Quantifies over a continuum.", "anchors": ["adept/_lpse2d/helpers.py:write_units"]}
{"id": "C181", "title": "Spectrax: sponge and density noise", "statement": "The sponge multiplies fields and non-density coefficients of both species at each point by exp(-rate h), the rate being a quadratic layer between 0 and the strength at the chosen sides and zero elsewhere; it never increases the field energy. The density noise drives the density only, as a function of x.", "quantifier": "all states, strengths, widths, step sizes, noise arrays", "why_tests_cant": "Quantifies over all states.", "anchors": ["adept/_spectrax1d/base_module.py:BaseSpectrax1D.get_solver_quantities", "adept/_spectrax1d/integrators.py:SplitStepDampingSolver._apply_damping", "adept/_spectrax1d/vector_field.py:SpectraxVectorField.__call__"]}
{"id": "C182", "title": "Self-consistent temperature is well defined", "statement": "For every distribution with particles of two different speeds, every exponent and every (uniform or non-uniform, symmetric or speed) grid there is exactly one shape parameter beta whose sampled shape exp(-beta |v-vbar|^m) has the same discrete temperature; it is positive exactly when the distribution is colder than a flat one on the grid.", "quantifier": "all grids, distributions, exponents, mean velocities", "why_tests_cant": "Existence and uniqueness over a continuum; a test only sees one root.", "anchors": ["adept/driftdiffusion.py:find_self_consistent_beta", "adept/driftdiffusion.py:discrete_temperature"]}
{"id": "C183", "title": "Newton refinement of the temperature", "statement": "The refinement returns the self-consistent parameter: it rests only there, is defined everywhere, never leaves the first guess when that is exact, and a configured number of steps reaches it.", "quantifier": "all distributions, grids, numbers of iterations", "why_tests_cant": "Convergence from every start cannot be sampled.", "anchors": ["adept/driftdiffusion.py:_find_self_consistent_beta_single"]}
{"id": "C184", "title": "Analytic temperatures of super-Gaussians", "statement": "The analytic first guess and the diffusion coefficient are the continuum ones: the mean square velocity of exp(-beta |v|^m) (or <v^4>/(3<v^2>) on a speed grid) for every exponent, one half of v_m^2 at m = 2.", "quantifier": "all exponents, temperatures, parameters", "why_tests_cant": "Integrals over the real line for every exponent.", "anchors": ["adept/driftdiffusion.py:analytic_supergaussian_temperature_ratio", "adept/_vlasov1d/solvers/pushers/fokker_planck.py:SuperGaussianDougherty.compute_D"]}
{"id": "C185", "title": "Super-Gaussian collisions conserve energy", "statement": "The super-Gaussian operator's parameter makes the collisional energy exchange vanish: the energy given by the operator is proportional to the condition the closure solves; the solution is unique and positive, and at m = 2 the operator is the Dougherty one.", "quantifier": "all grids, distributions, exponents, rates, time steps", "why_tests_cant": "Exact cancellation for all distributions; a drift of one part in 1e7 is invisible in a short test.", "anchors": ["adept/_vlasov1d/solvers/pushers/fokker_planck.py:SuperGaussianDougherty.compute_beta", "adept/_vlasov1d/solvers/pushers/fokker_planck.py:SuperGaussianDougherty.compute_C_and_D"]}
{"id": "C186", "title": "VFP-1D initial distribution has the configured density and temperature", "statement": "The initial electron distribution of VFP-1D, for every super-Gaussian exponent m > 0, has exactly the configured density and the configured temperature (mean square speed 3 T vth^2 / 2) in the continuum, is the Maxwellian at m = 2, is positive and decreasing with the speed; several species add their densities and energies; and the density, energy and temperature computed from the saved grid values converge to the configured ones as the speed grid is made longer and finer.", "quantifier": "for every exponent, thermal speed, density, temperature, number of species and every tolerance", "why_tests_cant": "the claim is about Gamma integrals for a continuum of exponents and about a limit in the grid; a test sees one exponent on one grid", "anchors": ["adept/vfp1d/helpers.py:_initialize_distribution_", "adept/vfp1d/helpers.py:gamma_3_over_m", "adept/vfp1d/storage.py:get_field_save_func"]}
{"id": "C187", "title": "VFP-1D profiles from files", "statement": "A two-column profile file, separated by commas, spaces or tabs, with comments, blank lines, header rows and any number of leading columns, is read as exactly the number pairs of its last two columns; the order of its rows does not matter; on the grid the profile has the listed value at every listed coordinate, is the straight line between neighbours and constant beyond the ends; a file with fewer than two numeric rows is an error, never a wrong profile.", "quantifier": "for every file text, separator, line ending, number of columns and rows, every grid position and unit factor", "why_tests_cant": "the property ranges over all texts and all positions; tests read a handful of files", "anchors": ["adept/vfp1d/helpers.py:_read_two_column_file", "adept/vfp1d/helpers.py:load_profile_on_grid"]}
{"id": "C188", "title": "VFP-1D profiles and species sections", "statement": "A VFP-1D density section is accepted exactly when some entry is named species-... and each such entry has known profile kinds; positive profile parameters give positive density and temperature at every position and a positive initial distribution at every speed; bump and trough are mirror images between baseline and baseline plus height; sine and cosine profiles have the configured period and mean.", "quantifier": "for every list of species, every profile parameter, position and speed", "why_tests_cant": "positivity at every position and acceptance of every deck cannot be sampled", "anchors": ["adept/vfp1d/helpers.py:_initialize_total_distribution_", "adept/vfp1d/base.py:init_state_and_args"]}
{"id": "C189", "title": "VFP-1D saved quantities", "statement": "Every default scalar of VFP-1D is the mean over the cells of the field saved under the same name; density, pressure, temperature and energy belong to one distribution (P = n T = U / 3, 0 < T < vmax^2 / 3 for a positive distribution); every quantity is also written in code units, and columns with a physical unit hold the value in that unit; a save section is accepted exactly when all its entries are fields or electrons on the time axis, and then all are saved.", "quantifier": "for every distribution, grid, save section and reference density", "why_tests_cant": "identities between outputs for all states; tests look at single runs", "anchors": ["adept/vfp1d/storage.py:get_field_save_func", "adept/vfp1d/storage.py:get_default_save_func", "adept/vfp1d/storage.py:get_unit", "adept/vfp1d/storage.py:get_save_quantities"]}
{"id": "C190", "title": "Vlasov-1D initial distribution has the configured density, drift and temperature", "statement": "Each component of a Vlasov-1D species starts with exactly the configured density profile in every cell, whatever its drift, temperature, exponent and velocity grid, is positive wherever the density is, has exactly the configured drift on a velocity grid centred on it, and on a long and fine enough velocity grid has, as closely as wanted, the configured drift and the configured temperature.", "quantifier": "for every density profile, drift, temperature, mass, exponent m > 0, number of cells and velocities, velocity range, and every tolerance", "why_tests_cant": "an identity for all profiles and grids and a limit over grids; tests see one grid", "anchors": ["adept/_vlasov1d/helpers.py:_initialize_supergaussian_distribution_", "adept/_vlasov1d/helpers.py:_initialize_total_distribution_"]}
{"id": "C191", "title": "Vlasov-1D species set and initial charge", "statement": "The species of a Vlasov-1D run are those of the deck's list, or electrons made of all species- components; a missing component is an error; a neutralising background makes the initial charge of a single species zero everywhere, and with several species the initial charge is the sum of charge times profile; every listed species is simulated.", "quantifier": "for every deck, species list, component set, profile and seed", "why_tests_cant": "quantifies over all decks and profiles", "anchors": ["adept/_vlasov1d/modules.py:species_set_from_config", "adept/_vlasov1d/helpers.py:_initialize_total_distribution_", "adept/_vlasov1d/simulation.py:Vlasov1DSimulation"]}
{"id": "C192", "title": "Vlasov-1D density options and state entries", "statement": "A basis profile of a component is the documented function of position with the configured envelope; noise stays within the configured relative amplitude and keeps the density positive; unknown bases are errors; the initial state has one entry per species, the fields with the right sizes, and a diagnostic exactly if it is switched on.", "quantifier": "for every basis, envelope, noise seed and amplitude, and every set of species names", "why_tests_cant": "ranges over all seeds, profiles and names", "anchors": ["adept/_vlasov1d/helpers.py:_initialize_total_distribution_", "adept/_vlasov1d/modules.py:init_state_and_args"]}
{"id": "C193", "title": "Vlasov-1D saved moments and scalars", "statement": "The scalars of a Vlasov-1D run are the box averages of the saved fields; density, current, velocity, pressure and heat flux belong to one distribution (j = n v, second and third moments decompose); pressure is never negative for a non-negative distribution and neither pressure nor heat flux depends on the frame; kinetic plus field energy is the total energy; and at the start the saved densities are the profiles of the deck.", "quantifier": "for every distribution, grid, field, and list of species", "why_tests_cant": "identities between outputs for all states", "anchors": ["adept/_vlasov1d/storage.py:get_field_save_func", "adept/_vlasov1d/storage.py:get_default_save_func"]}
{"id": "C194", "title": "Vlasov-1D saved samples of the distribution", "statement": "A distribution saved on its own positions and velocities is, at every requested point of the box and velocity range, the bilinear interpolation of the grid values: exact at the grid points and for bilinear functions, and within the range of the distribution.", "quantifier": "for every grid, save axes, point and distribution", "why_tests_cant": "all points and all distributions", "anchors": ["adept/_vlasov1d/storage.py:get_dist_save_func", "adept/_vlasov1d/storage.py:_add_dim_axes"]}
{"id": "C195", "title": "Vlasov-1D save section", "statement": "A save section with any entries for fields, labelled species distributions and diagnostics, in any order, is accepted and gives one stream for each entry and label plus the scalars, none replacing another, each stored as what it is; unknown kinds and unsupported dimensions are refused; without limits a stream covers the whole run evenly.", "quantifier": "for every save section, order of entries, set of species, labels and limits", "why_tests_cant": "all decks and all orders of their entries", "anchors": ["adept/_vlasov1d/storage.py:get_save_quantities", "adept/_vlasov1d/storage.py:get_dist_save_func", "adept/_vlasov1d/helpers.py:post_process", "adept/_vlasov1d/modules.py:get_derived_quantities"]}
{"id": "C196", "title": "Ion-acoustic charge spectrum", "statement": "The saved charge spectrum of the ion-acoustic module consists of the complex amplitudes of the modes of the total charge: mode 0 is the mean, a wave of amplitude A appears with A/2 and its phase in its own mode only and with power A^2/4, and the powers never exceed the mean square of the charge; only modes of the grid are saved; the late-time average is over the samples in the configured window; the recorded screening length is that of the field solver.", "quantifier": "for every set of species, distribution, number of cells and modes, window and electron temperature", "why_tests_cant": "all charge densities and all grids", "anchors": ["adept/_vlasov1d/iaw.py:init_diffeqsolve", "adept/_vlasov1d/iaw.py:_process_nk", "adept/_vlasov1d/iaw.py:screening_length"]}
{"id": "C197", "title": "OSIRIS image decimation", "statement": "The arrays drawn as images are block averages: with a target of t cells an axis of n cells is drawn with at least min(n, t) and fewer than 2t cells, an axis below twice the target is untouched, the mean of the drawn cells is the mean of the cells they cover, at most one incomplete block is dropped at the end of an axis, drawn coordinates are the centres of the blocks, every drawn value lies between the smallest and largest value of its block, and the target is never below the pixels of the visible part (up to the cap).", "quantifier": "for every array, size, target and figure size", "why_tests_cant": "all sizes and targets, including incomplete blocks", "anchors": ["adept/osiris/plots.py:_boxcar_downsample", "adept/osiris/plots.py:_render_cells"]}
{"id": "C198", "title": "OSIRIS time slices of evolution plots", "statement": "The dumps loaded for a phase-space evolution are in increasing order, contain the first and the last dump and about the requested number of them, and drawing from the loaded subset shows the subset; line-outs are evenly spaced from the first dump.", "quantifier": "for every number of dumps and panels", "why_tests_cant": "all numbers of dumps and panels; rounding differs with divisibility", "anchors": ["adept/osiris/plots.py:_evolution_t_indices", "adept/osiris/plots.py:plot_lineouts"]}
{"id": "C199", "title": "OSIRIS cropping to the simulation box", "statement": "A phase-space plot keeps exactly the cells of its spatial axes inside the simulation box, with the bounds of the right dimension, and leaves an axis inside the box unchanged.", "quantifier": "for every axis, box and dimension", "why_tests_cant": "all axes and boxes", "anchors": ["adept/osiris/plots.py:_crop_spatial_to_box", "adept/osiris/plots.py:_sim_box_bound"]}
{"id": "C200", "title": "OSIRIS (k, omega) spectrum", "statement": "The (k, omega) image shows at each (k, omega) the power of the space-time Fourier transform there: both axes cover the Nyquist range symmetrically and evenly, a plane wave appears at its own wave number and frequency and nowhere else, the mirrored negative frequencies agree with the transform, and the zoom window never leaves the Nyquist range.", "quantifier": "for every real field series, grid and decimation", "why_tests_cant": "all series and all parities of the grid", "anchors": ["adept/osiris/plots.py:plot_omega_k", "adept/osiris/plots.py:_omega_k_zoom_window"]}
{"id": "C201", "title": "OSIRIS density and temperature profiles", "statement": "The density profile of a species obtained from its charge density is its number density, and the temperature profile obtained from a phase space is the variance of the momentum at each position: never negative, independent of a shift of the momentum axis, independent of the sign of the charge, and absent where there are no particles.", "quantifier": "for every series and charge", "why_tests_cant": "all phase spaces and charges", "anchors": ["adept/osiris/plots.py:_density_series", "adept/osiris/plots.py:_temperature_from_phasespace"]}
{"id": "C202", "title": "OSIRIS left- and right-going fields", "statement": "The right- and left-going parts of the transverse fields add up to the field, a wave travelling in one direction has no part in the other, in vacuum each part is carried with the speed of light in its direction, for both polarisations; the boundary slabs contain the requested cells next to each end and hold the same split.", "quantifier": "for every field, grid, guard and window", "why_tests_cant": "all fields and all slab sizes", "anchors": ["adept/osiris/plots.py:efield_lr_components", "adept/osiris/plots.py:transverse_field_boundary_slabs"]}
{"id": "C203", "title": "OSIRIS field energy", "statement": "The field energy series has every dumped iteration once in increasing order; electric plus magnetic energy is the total, half the sum of squares of all six components times the cell volume; it is never negative; components that are not dumped count as zero.", "quantifier": "for every set of dumped components, iterations and grids", "why_tests_cant": "all dump cadences", "anchors": ["adept/osiris/plots.py:field_energy_components", "adept/osiris/plots.py:_field_energy_from_series"]}
{"id": "C204", "title": "OSIRIS derived quantities", "statement": "The quantities recorded for an OSIRIS deck are those of the run: a cell size for each dimension, box length over number of cells; the time step over the smallest cell, below a limit exactly if the step is below that multiple of every cell; the number of steps of the run; and the number of dimensions, which chooses the executable. A deck without these entries is no error.", "quantifier": "for every deck", "why_tests_cant": "all decks, dimensions and spellings of array parameters", "anchors": ["adept/osiris/base.py:BaseOsiris.get_derived_quantities", "adept/osiris/base.py:_infer_dim", "adept/osiris/base.py:_first_array_value"]}
{"id": "C205", "title": "OSIRIS recorded units", "statement": "The units recorded for an OSIRIS deck are those of its reference density or frequency: plasma frequency and density belong together, times are in inverse plasma frequencies, lengths in skin depths, velocities in units of the speed of light; box length, duration and laser frequency, wavelength and intensity follow from the deck, with intensity times wavelength squared proportional to a0 squared. Without a reference nothing is recorded.", "quantifier": "for every deck, and every value of the physical constants", "why_tests_cant": "all densities, frequencies, boxes and lasers", "anchors": ["adept/osiris/base.py:BaseOsiris.write_units"]}
{"id": "C206", "title": "OSIRIS ion-acoustic speeds", "statement": "The ion-acoustic overlay has one speed for each ion species with a positive mass-to-charge ratio, the square being the electron thermal speed squared over that ratio plus three times the ion thermal speed squared; the electrons are the first species with a negative ratio and a thermal speed; species without a positive speed have none.", "quantifier": "for every deck", "why_tests_cant": "all sequences of species and momentum sections", "anchors": ["adept/osiris/plots.py:ion_acoustic_speeds"]}
{"id": "C207", "title": "OSIRIS final field energy", "statement": "The final field energy of an OSIRIS run is the sum over the dumped components of the energy of their last dumps, whatever the order of the files; line-outs and slices never count; it agrees with the last value of the energy series; it is absent only if no component has a dump, and then that of the streamed files is used; a component not dumped on the full grid is drawn from an averaged variant, never from a line-out.", "quantifier": "for every set of diagnostics and dumps", "why_tests_cant": "all directory contents", "anchors": ["adept/osiris/post.py:_total_field_energy", "adept/osiris/post.py:_is_field_component_dir", "adept/osiris/plots.py:_resolve_fld_diag"]}
{"id": "C208", "title": "OSIRIS plot regeneration", "statement": "Regenerating the plots of a run without options gives the plots of the run: same dumps, same directory, same plot options, whether the run directory or its binary directory is given; an option of the command line replaces that of the run and leaves the others; a missing or unreadable configuration gives the defaults.", "quantifier": "for every directory layout, configuration and command line", "why_tests_cant": "all combinations of options and layouts", "anchors": ["adept/osiris/regen.py:main", "adept/osiris/plots.py:canned_plot_kwargs"]}
{"id": "C209", "title": "VFP-2D vector potential", "statement": "The saved vector potential belongs to the saved field: its curl is the in-plane field without its mean, for every divergence-free field; minus its Laplacian is the curl of the field for any field; it has no mean, inverts the curl, is linear, and when the field advances by the curl of an electric field the potential of every cell decreases by the field along z up to its mean.", "quantifier": "every grid size, cell size and field without content on the Nyquist lines", "why_tests_cant": "An identity for all fields and grids; tests evaluate a few fields to a tolerance.", "anchors": ["adept/vfp2d/plotting.py:_vector_potential"]}
{"id": "C210", "title": "VFP-2D reconnection diagnostics", "statement": "The X-point is the cell next to the centre of the box and the upstream points are the cells of largest reversing field on either side; every reported fraction is in [0,1] and the sheet width is at most its window; flux and Hessian do not depend on the gauge, the Hessian is exact for quadratic potentials, so an O-point is never called reconnection; a valid slice has opposite upstream fields within a factor seven, an X-point field at most half of them, a saddle, and a dominant sheet; a reported rate times its scale is the field at the X-point; the flux obeys Faraday's law; a quadrupole has purity one and a mirror-symmetric field purity zero.", "quantifier": "every grid, every saved field, every run", "why_tests_cant": "The gates must hold for every field; tests try a handful of analytic ones.", "anchors": ["adept/vfp2d/plotting.py:add_reconnection_diagnostics"]}
{"id": "C211", "title": "VFP-2D panels, colour scales and metrics", "statement": "A figure shows as many distinct saved times as asked and saved, in order, from the first to the last, equally spaced to half a saved step; its one colour scale contains all values and has a width, symmetric for signed quantities; limits select exactly the cells inside and are refused when there is none; peak metrics bound every reported value, final metrics are the last value or zero, valid fractions are in [0,1].", "quantifier": "every number of saved times and panels, every list of values and gates", "why_tests_cant": "The bounds and rounding must hold for all counts and values.", "anchors": ["adept/vfp2d/plotting.py:_selected_indices", "adept/vfp2d/plotting.py:save_xy_facet", "adept/vfp2d/plotting.py:reconnection_metrics"]}
{"id": "C212", "title": "VFP-2D profiles", "statement": "A profile written for VFP-1D means the same in VFP-2D; axis y is its transpose; entries x and y make a product with missing directions uniform; Gaussian spots are between zero and the amplitude times their number, round ones depend on the distance alone with e-folding at the radius, opposite pairs are symmetric.", "quantifier": "every profile, position and deck entry", "why_tests_cant": "Equalities of two implementations for all profiles and positions.", "anchors": ["adept/vfp2d/base.py:_profile_1d", "adept/vfp2d/base.py:_profile_2d"]}
{"id": "C213", "title": "VFP-2D initial distribution and save times", "statement": "The initial isotropic part is the sum over the species of the deck with their own profiles, decks without species are refused; a relativistic run starts with exactly the density of its profiles on the grid, distributed as Maxwell-Juettner; the default save times are those of the steps for runs up to a hundred steps, and save times run evenly from first to last.", "quantifier": "every deck, speed grid, temperature, number of steps", "why_tests_cant": "Exact density must hold on every grid and temperature.", "anchors": ["adept/vfp2d/base.py:BaseVFP2D.init_state_and_args", "adept/vfp2d/base.py:BaseVFP2D.init_diffeqsolve"]}
{"id": "C214", "title": "Wave frequency from the saved phase", "statement": "For a travelling wave of any positive, time-dependent amplitude saved at least twice per period, the mean and final reported frequency of the first mode equal the frequency of the wave, sign included; no reported frequency exceeds pi over the saved interval; one saved time is an error. (Waves saved too seldom are reported at an aliased frequency and standing waves near zero.)", "quantifier": "every number of saved times, frequency, interval, phase and amplitude history", "why_tests_cant": "Exactness must hold for all frequencies up to the sampling limit and all amplitude histories.", "anchors": ["adept/_spectrax1d/epw_module.py:EPW1D._compute_epw_frequency", "adept/_spectrax1d/maxwell_module.py:Maxwell1D._compute_em_frequency", "adept/_spectrax1d/epw_module.py:EPW1D.post_process"]}
{"id": "C215", "title": "Damping rate of the first mode", "statement": "The rate is the exponent of an exponential amplitude whatever the phase; it is the slope of the best line through the logarithms; the first third of the run has no influence; a change of units has none; it is NaN exactly when fewer than ten of the last two thirds of the saved times exceed the floor.", "quantifier": "every series of saved amplitudes", "why_tests_cant": "Least-squares optimality and exactness quantify over all series and lines.", "anchors": ["adept/_spectrax1d/epw_module.py:EPW1D._compute_damping_rate"]}
{"id": "C216", "title": "Light-wave metrics, energy windows and mode plots", "statement": "A travelling light wave is reported at the size of its frequency and a standing one at half a turn per zero crossing, from the last fifth of the saved times, with at least six of them; the absorption ratio is between zero and one, one for undamped and zero for fully absorbed waves; the final electrostatic energy lies between the extremes over the last 50 plasma times; mode curves carry the mode they show.", "quantifier": "every series of fields and energies, every number of saved times and cells", "why_tests_cant": "Window arithmetic and bounds must hold for all lengths and series.", "anchors": ["adept/_spectrax1d/maxwell_module.py:Maxwell1D.post_process", "adept/_spectrax1d/epw_module.py:EPW1D.post_process", "adept/_spectrax1d/plotting.py:plot_field_mode_amplitudes", "adept/_spectrax1d/plotting.py:plot_epw_diagnostics", "adept/_spectrax1d/plotting.py:plot_distribution_facets"]}
{"id": "C217", "title": "Saved times drawn in lineout figures", "statement": "Lineout figures show saved times in increasing order at a fixed stride starting with the first, at least one panel less than wanted and at most twice as many less two, and include the final state.", "quantifier": "every number of saved times and wanted panels", "why_tests_cant": "Integer division must be right for all counts.", "anchors": ["adept/_vlasov1d/helpers.py:post_process", "adept/_vlasov1d2v/helpers.py:post_process", "adept/_pic1d/helpers.py:post_process", "adept/vfp1d/storage.py", "adept/_lpse2d/helpers.py", "adept/_spectrax1d/plotting.py:plot_fields_lineouts"]}
{"id": "C218", "title": "Moving phase-space axes", "statement": "Whenever the bounds of an OSIRIS axis move between dumps, the axis rebuilt for a dump is exactly that dump's own axis; for axes that do not move it is within the closeness tolerance of it; this survives saving and reloading, any selection of dumps, and files written by the concurrent converter; an axis is reported as autoscaled after reloading exactly if it was before.", "quantifier": "every sequence of per-dump bounds, number of cells, dump, cell and selection of dumps", "why_tests_cant": "A wrong pairing of dump and bounds shows only for particular histories of bounds.", "anchors": ["adept/osiris/io.py:load_series", "adept/osiris/io.py:physical_axis", "adept/osiris/io.py:load_series_nc", "adept/osiris/io.py:_series_da_from_dataset", "adept/osiris/stream.py"]}
{"id": "C219", "title": "Particles of RAW dumps", "statement": "The rows of a loaded RAW series are all the particles of all the dumps in order, each with the values, the time and the iteration of its own dump, NaN exactly for the quantities its dump lacks; only the dumps of iteration zero can be dropped, only on request and never all of them.", "quantifier": "every list of dumps with any numbers of particles and quantities", "why_tests_cant": "Row bookkeeping must hold for all particle counts, including empty dumps.", "anchors": ["adept/osiris/io.py:load_raw_series", "adept/osiris/io.py:load_raw_h5"]}
{"id": "C220", "title": "Energy histories", "statement": "The reported field energy is the sum of the columns of the field file on its own times, the energy of a species is the last column of its file interpolated to those times (unchanged if the times agree), the total is the sum of both at every time, the drift is the spread of the total over its largest size, and a table is read completely whatever comments, blank lines and headers it has.", "quantifier": "every set of history files, numbers of rows and columns, time axes", "why_tests_cant": "Files on different times, in any number, and truncated files must all be right.", "anchors": ["adept/osiris/io.py:load_hist_energy", "adept/osiris/io.py:_parse_hist_table", "adept/osiris/io.py:_interp_onto"]}
{"id": "C221", "title": "Best-effort standard figures", "statement": "Generating the standard figures of an OSIRIS run makes exactly the figures the run's readable diagnostics call for; a diagnostic that cannot be read, or is of another dimension, changes no other figure; a failure while drawing one family leaves all other families complete; the generation raises exactly if a failure is outside every handler.", "quantifier": "every set of diagnostics of a run and every pattern of drawing failures", "why_tests_cant": "All combinations of missing, short and undrawable diagnostics must be isolated.", "anchors": ["adept/osiris/plots.py:save_canned_plots", "adept/osiris/plots.py:plot_omega_k"]}
{"id": "C222", "title": "Data shown in profiles and phase-space figures", "statement": "The late-time mean of a profile is over the wanted fraction of the dumps, at least one and at most all, and is the same whether the whole history or only the first and the last dumps are read; the density shown is the first dumped of n, n01, n02, charge, m; the temperature of a species does not depend on its source; every populated cell of a phase space is inside the colour range.", "quantifier": "every number of dumps, fraction, series, set of dumped moments and cell values", "why_tests_cant": "Rounding and windows must agree for all counts; colour limits must cover all data.", "anchors": ["adept/osiris/plots.py:plot_profile", "adept/osiris/plots.py:_density_series", "adept/osiris/plots.py:_temperature_series", "adept/osiris/plots.py:_nonzero_log_clim", "adept/osiris/plots.py:save_canned_plots"]}
{"id": "C223", "title": "Labels", "statement": "Rendering an OSIRIS label or unit adds only balanced math delimiters: removing them gives back the text; a unit is wrapped as a whole iff it has markup and wrapping twice changes nothing; a label is wrapped word by word; both agree on single words of mathematics.", "quantifier": "every text", "why_tests_cant": "String manipulation must hold for all labels a deck can produce.", "anchors": ["adept/osiris/plots.py:_tex", "adept/osiris/plots.py:_label_tex"]}
{"id": "C224", "title": "Vlasov-1D on several devices", "statement": "Dividing a Vlasov-1D run over any number of devices along x, along v or along both gives the same states as the serial run, for both velocity pushers, both integrators, all field solvers and all collision operators; if an axis to be divided is no multiple of the number of devices the first step is refused with an error instead of giving a wrong result.", "quantifier": "every number of devices, parallel setting, grid, list of species, driver, collision setting and number of steps", "why_tests_cant": "The result must not depend on the number of devices for any deck; a test machine has one.", "anchors": ["adept/_vlasov1d/solvers/pushers/vlasov.py:VelocityExponential.__call__", "adept/_vlasov1d/solvers/pushers/vlasov.py:VelocityCubicSpline.__call__", "adept/_vlasov1d/solvers/pushers/vlasov.py:SpaceExponential.__call__", "adept/_vlasov1d/solvers/pushers/fokker_planck.py:Collisions._apply_collisions", "adept/_vlasov1d/solvers/vector_field.py:_is_parallel", "adept/_vlasov1d/solvers/vector_field.py:TimeIntegrator", "adept/_vlasov1d/solvers/vector_field.py:VlasovPoissonFokkerPlanck.__call__"]}
{"id": "C225", "title": "Complete Vlasov-1D runs", "statement": "A complete Vlasov-1D run of any length with the exponential push keeps the number of particles of every species, with any integrator, field solver, driver, laser, collision operator, Krook relaxation, Hou-Li filter and division over devices; with the Poisson solver and no filter the electric field obeys Gauss's law with the distributions of the same step; Chang-Cooper collisions and Krook relaxation keep a non-negative distribution non-negative; such runs exist.", "quantifier": "every initial state, drive history, collision setting, number of steps and devices", "why_tests_cant": "Conservation must survive every combination of operators over arbitrarily many steps.", "anchors": ["adept/_vlasov1d/solvers/vector_field.py:VlasovPoissonFokkerPlanck.__call__", "adept/_vlasov1d/solvers/vector_field.py:LeapfrogIntegrator.__call__", "adept/_vlasov1d/solvers/vector_field.py:SixthOrderHamIntegrator.__call__", "adept/_vlasov1d/solvers/pushers/fokker_planck.py:Collisions.__call__", "adept/_vlasov1d/solvers/pushers/fokker_planck.py:Krook.__call__", "adept/_vlasov1d/solvers/pushers/vlasov.py:HouLiFilter.__call__"]}
{"id": "C226", "title": "Symmetries of Vlasov-1D runs", "statement": "A Vlasov-1D run of a plasma moved by any number of cells along the periodic box, with its drivers moved along, is the moved run; on velocity grids symmetric about zero a run of the mirror image is the mirror image of the run. Hence a plasma that starts and is driven with a period keeps it, a uniform plasma stays uniform, and a mirror-symmetric plasma stays so, without total momentum or mean field.", "quantifier": "every initial state, shift, drive history, field solver, integrator, collision operator, filter, number of steps and devices", "why_tests_cant": "No operator may prefer a cell, a boundary or a direction, in any combination over any number of steps; a test sees a few steps of one state.", "anchors": ["adept/_vlasov1d/solvers/pushers/vlasov.py:VelocityExponential.__call__", "adept/_vlasov1d/solvers/pushers/vlasov.py:SpaceExponential.__call__", "adept/_vlasov1d/solvers/pushers/vlasov.py:HouLiFilter.__call__", "adept/_vlasov1d/solvers/pushers/field.py:SpectralPoissonSolver", "adept/_vlasov1d/solvers/pushers/field.py:HampereSolver", "adept/_vlasov1d/solvers/pushers/fokker_planck.py:Collisions.__call__", "adept/_vlasov1d/solvers/pushers/fokker_planck.py:Krook.__call__", "adept/_vlasov1d/solvers/vector_field.py:VlasovPoissonFokkerPlanck.__call__"]}
{"id": "C227", "title": "Saved distributions of Vlasov-1D2V and Vlasov-2D", "statement": "A distribution saved on a coarser grid agrees with the distribution where the grids meet, lies between its smallest and greatest value elsewhere, is exact for data that is linear between the cells and does not depend on the order in which the axes are reduced; a distribution that is nowhere negative is saved without negative values, at the edges of the velocity grid too. The dimensions a label names decide what is saved, and other labels are refused before the run.", "quantifier": "every grid, distribution, set of save axes, label and point", "why_tests_cant": "Interpolation errors depend on where each requested point lies relative to the cells, in particular outside the first and last cell centre.", "anchors": ["adept/_vlasov1d2v/storage.py:get_dist_save_func_2v", "adept/_vlasov2d/storage.py:get_dist_save_func", "adept/_vlasov2d/storage.py:_add_dim_axes"]}
{"id": "C228", "title": "Symmetries of Vlasov-2D runs", "statement": "A Vlasov-2D run of a problem moved by whole cells in x and y, drivers and collision profiles included, is the moved run; the mirror image across y (y, vy, ey and bz change sign) of a problem runs to the mirror image. So a period or a mirror symmetry of the initial state and the drive is kept for ever, and a problem that depends on x only and is symmetric in vy stays so: no transverse electric field, no magnetic field and no transverse current appear at any step.", "quantifier": "every grid size, state, number of species and steps, driver and collision setting; every shift; solvers without a preferred direction for the mirror image", "why_tests_cant": "A wrong axis, sign or index in one operator breaks the symmetry only for some fields, and a test that starts from a symmetric state need not exercise that operator.", "anchors": ["adept/_vlasov2d/solvers/vector_field.py:VlasovMaxwell.__call__", "adept/_vlasov2d/solvers/vector_field.py:TimeIntegrator", "adept/_vlasov2d/solvers/vector_field.py:HouLiFilter", "adept/_vlasov2d/solvers/pushers/vlasov.py:SpaceExponentialX.__call__", "adept/_vlasov2d/solvers/pushers/vlasov.py:VelocitySL2DE.__call__", "adept/_vlasov2d/solvers/pushers/vlasov.py:VelocityRotateB.__call__", "adept/_vlasov2d/solvers/pushers/field.py:MaxwellSpectral.__call__", "adept/_vlasov2d/solvers/pushers/field.py:CurrentMoments.__call__", "adept/_vlasov2d/solvers/pushers/fokker_planck.py:DoughertyFP.__call__", "adept/_vlasov2d/solvers/pushers/fokker_planck.py:Krook2D.__call__"]}
{"id": "C229", "title": "What a particle run depends on, and its symmetries", "statement": "A particle run depends only on the charge in phase space: the order of markers and species, dividing a marker together with its weight, joining species of equal charge and mass, scaling charge, mass and weight together, and markers of weight zero change neither the fields nor the path of any other marker. The run of a problem moved by whole cells is the moved run and the run of the mirror image, light waves included, is the mirror image of the run, so a period or a mirror symmetry of plasma, background and drivers is kept for ever.", "quantifier": "every marker set, shape, integrator, driver, grid and number of steps", "why_tests_cant": "A test compares one load with one other; the claims are about all ways to write the same plasma and all shifts, and rounding to a cell treats particles on cell edges specially.", "anchors": ["adept/_pic1d/solvers/vector_field.py:PIC1DVectorField.__call__", "adept/_pic1d/solvers/pushers/push.py:_Kicker.apply", "adept/_pic1d/solvers/pushers/push.py:_drift", "adept/_pic1d/solvers/pushers/push.py:LeapfrogIntegrator", "adept/_pic1d/solvers/pushers/push.py:Yoshida4Integrator", "adept/_pic1d/solvers/pushers/shape.py:_shape_indices_weights", "adept/_pic1d/solvers/pushers/shape.py:deposit", "adept/_pic1d/solvers/pushers/shape.py:gather", "adept/_pic1d/solvers/pushers/field.py:ElectronChargeDensity"]}
{"id": "C230", "title": "What a collisionless Vlasov-1D run depends on", "statement": "A collisionless Vlasov-1D run with the exponential velocity push, with or without the Hou-Li filter, depends only on the plasma and not on how it is written down. A species divided into parts of the same charge, mass and velocity grid gives the same fields, and at every step its distribution is the sum of those of the parts, each of which moves in the field of all. The order of the species, neutral or empty species, and scaling charge, mass and weight of a species together change neither the field nor any other species.", "quantifier": "every list of species and parts, Poisson, Boltzmann-Poisson and Ampere fields, leapfrog and sixth order, every drive and number of steps", "why_tests_cant": "A test can compare one division of one plasma; the claim is about all of them and all later times.", "anchors": ["adept/_vlasov1d/solvers/vector_field.py:VlasovPoissonFokkerPlanck", "adept/_vlasov1d/solvers/vector_field.py:LeapfrogIntegrator", "adept/_vlasov1d/solvers/vector_field.py:SixthOrderHamIntegrator", "adept/_vlasov1d/solvers/pushers/field.py:SpectralPoissonSolver", "adept/_vlasov1d/solvers/pushers/field.py:BoltzmannPoissonSolver", "adept/_vlasov1d/solvers/pushers/field.py:AmpereSolver", "adept/_vlasov1d/solvers/pushers/vlasov.py:VelocityExponential", "adept/_vlasov1d/solvers/pushers/vlasov.py:SpaceExponential", "adept/_vlasov1d/solvers/pushers/vlasov.py:HouLiFilter"]}
{"id": "C231", "title": "Which Vlasov-1D decks are accepted, and that they run with the accepted values", "statement": "A Vlasov-1D deck is accepted exactly if its switches are truth values, its shard axes are among x and v, its filter acts on x only, a Boltzmann-electron run lists species without negative charge, its stochastic driver has positive modes and correlation time, every driver gives a wave number or a frequency, time windows are ordered fractions, mass number, charge state and super-Gaussian exponent are in range, and the fields are saved. An accepted deck with known solvers and operators starts, and its run has the values of the accepted configuration, with the defaults where the deck says nothing.", "quantifier": "every deck: every value in the place of a switch, every list of species, drivers, save entries and shard axes", "why_tests_cant": "A test suite holds some decks; acceptance and agreement of the two readings of a deck is about all.", "anchors": ["adept/_vlasov1d/datamodel.py:Vlasov1DConfig", "adept/_vlasov1d/datamodel.py:TermsConfig.check_boltzmann_electrons", "adept/_vlasov1d/datamodel.py:GridConfig.validate_parallel", "adept/_vlasov1d/datamodel.py:HouLiFilterConfig", "adept/_vlasov1d/datamodel.py:DiagnosticsConfig", "adept/_vlasov1d/modules.py:BaseVlasov1D.init_state_and_args", "adept/_vlasov1d/storage.py:get_save_quantities", "adept/_vlasov1d/solvers/vector_field.py:VlasovPoissonFokkerPlanck.__init__", "adept/_vlasov1d/solvers/pushers/field.py:ElectricFieldSolver.__init__"]}
{"id": "C232", "title": "Which Vlasov-2D decks are accepted, and that they run with the accepted values", "statement": "A Vlasov-2D deck is accepted exactly if its switches are truth values, its shard axes and filter dimensions are among x and y, its pushers are known, and the fields are saved. An accepted deck starts, and its run has the values of the accepted configuration: the velocity push, whether the fields are evolved, the collisions, the filter with its strength, order and dimensions, and the drivers, with the defaults where the deck says nothing.", "quantifier": "every deck: every value in the place of a switch, every section there or not, every list of species and save entries", "why_tests_cant": "A test suite holds some decks; acceptance and agreement of the two readings of a deck is about all.", "anchors": ["adept/_vlasov2d/datamodel.py:Vlasov2DConfig", "adept/_vlasov2d/datamodel.py:GridConfig.validate_parallel", "adept/_vlasov2d/datamodel.py:HouLiFilterConfig", "adept/_vlasov2d/modules.py:species_set_from_config", "adept/_vlasov2d/modules.py:sim_from_config", "adept/_vlasov2d/modules.py:BaseVlasov2D", "adept/_vlasov2d/storage.py:get_save_quantities", "adept/_vlasov2d/solvers/vector_field.py:TimeIntegrator.__init__", "adept/_vlasov2d/solvers/vector_field.py:VlasovMaxwell.__init__", "adept/_vlasov2d/solvers/pushers/fokker_planck.py:Collisions"]}
{"id": "C233", "title": "Which accepted decks Vlasov-1D2V starts, and what of them the run has", "statement": "Vlasov-1D2V starts an accepted deck exactly if it lists its diagnostics, pushes velocities exponentially, has a species electron, one of four collision operators, no Krook operator, and a known integrator and field solver; otherwise it ends before the first step. A run that starts has the collisions, diagnostics and filter of the accepted configuration.", "quantifier": "every deck: every value in the place of a switch, every list of species and save entries", "why_tests_cant": "A test suite holds some decks; which of all decks start, and with what, is not a matter of examples.", "anchors": ["adept/_vlasov1d2v/datamodel.py:Vlasov1D2VConfig", "adept/_vlasov1d2v/modules.py:BaseVlasov1D2V.init_state_and_args", "adept/_vlasov1d2v/storage.py:get_save_quantities", "adept/_vlasov1d2v/solvers/vector_field.py:TimeIntegrator.__init__", "adept/_vlasov1d2v/solvers/vector_field.py:VlasovPoissonFokkerPlanck.__init__", "adept/_vlasov1d2v/solvers/pushers/fokker_planck.py:Collisions.__init__"]}
{"id": "C234", "title": "Which PIC-1D decks start, and that they start neutral if they say so", "statement": "A PIC-1D deck is accepted exactly if its integrator, field solver and shape are known, quasineutrality is a truth value and fields are saved; an accepted deck with readable species starts exactly if it gives the integrator and saves only fields and its species. The species are those listed, each with its components or all of them, or else the electrons. A run whose deck says to be neutral starts with no charge anywhere: the density profiles of its particles and the background cancel, whatever its species are; one whose deck says not to be starts with the charge of these profiles alone.", "quantifier": "every deck: every list of species, charges, components and densities, every spelling of quasineutrality, every list of save entries", "why_tests_cant": "A test suite holds some decks; that the background balances an arbitrary mix of species is a statement about all of them.", "anchors": ["adept/_pic1d/datamodel.py:PIC1DConfig", "adept/_pic1d/simulation.py:PICSpecies.from_config", "adept/_pic1d/simulation.py:sim_from_config", "adept/_pic1d/modules.py:BasePIC1D.get_solver_quantities", "adept/_pic1d/storage.py:get_save_quantities", "adept/_pic1d/solvers/vector_field.py:PIC1DVectorField.__init__"]}
{"id": "C235", "title": "Which two-fluid decks are accepted, and that they run as accepted", "statement": "A two-fluid deck is accepted exactly if the switches of both species are truth values and their trapping models are known. An accepted deck takes its first step exactly if its wave-number axis is not left empty, every moving species has a number or kinetic as gamma, and every trapping species has a collision frequency and a growth rate among the arguments of the call. What moves, is damped, has the kinetic closure or is trapped, and by which model, is what was accepted.", "quantifier": "every deck: every value in the place of a switch, every gamma, model and collision frequency, with and without a growth rate", "why_tests_cant": "A test suite holds some decks; which of all decks start, and as what, is not a matter of examples.", "anchors": ["adept/_tf1d/datamodel.py:ConfigModel", "adept/_tf1d/modules.py:BaseTwoFluid1D.get_derived_quantities", "adept/_tf1d/modules.py:BaseTwoFluid1D.init_state_and_args", "adept/_tf1d/solvers/vector_field.py:VF", "adept/_tf1d/solvers/pushers.py:VelocityStepper", "adept/_tf1d/solvers/pushers.py:EnergyStepper", "adept/_tf1d/solvers/pushers.py:ParticleTrapper"]}
