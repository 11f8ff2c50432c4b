{
 "claims": [
  {
   "property": "C01",
   "status": "partial",
   "theorems": [
    "Verif.Deck.deck_roundtrip_partial",
    "Verif.Deck.deck_render_parse",
    "Verif.Deck.deck_roundtrip_false_trailing",
    "Verif.Deck.deck_roundtrip_false_quote",
    "Verif.Deck.deck_roundtrip_false"
   ],
   "note": "False as stated (two witnesses: trailing comma, embedded double quote). Proved for every deck whose parse has no trailing-None list and no string with a double quote / a newline next to an odd quote."
  },
  {
   "property": "C02",
   "status": "proved",
   "theorems": [
    "Verif.Deck.comment_irrelevant",
    "Verif.Deck.bang_in_string_kept"
   ],
   "note": "A comment that is the entire unterminated last line is excluded."
  },
  {
   "property": "C03",
   "status": "proved",
   "theorems": [
    "Verif.Deck.parse_terminates"
   ],
   "note": ""
  },
  {
   "property": "C04",
   "status": "proved",
   "theorems": [
    "Verif.Deck.overrides_exact",
    "Verif.Deck.overrides_rejected",
    "Verif.Deck.merge_params_exact"
   ],
   "note": ""
  },
  {
   "property": "C05",
   "status": "proved",
   "theorems": [
    "Verif.Deck.override_key_resolution"
   ],
   "note": ""
  },
  {
   "property": "C06",
   "status": "partial",
   "theorems": [
    "Verif.Deck.flat_names_legal",
    "Verif.Deck.flat_lossless_false",
    "Verif.Deck.flat_lossless_partial"
   ],
   "note": "Names are always legal; losslessness is false (collision witness) and proved when no two parameters share a sanitised name."
  },
  {
   "property": "C07",
   "status": "proved",
   "theorems": [
    "Verif.Stream.writer_lossless",
    "Verif.Stream.writer_flush_lands",
    "Verif.Stream.writer_append_after_close_lost"
   ],
   "note": "For the append/flush/close/reopen protocol; writer_append_after_close_lost shows what happens outside it."
  },
  {
   "property": "C08",
   "status": "proved",
   "theorems": [
    "Verif.Stream.stream_exactly_once",
    "Verif.Stream.finalize_completes",
    "Verif.Stream.stream_prefix"
   ],
   "note": ""
  },
  {
   "property": "C09",
   "status": "proved",
   "theorems": [
    "Verif.Stream.watcher_keeps_off_newest"
   ],
   "note": ""
  },
  {
   "property": "C10",
   "status": "partial",
   "theorems": [
    "Verif.Stream.staged_dumps_kept_partial",
    "Verif.Stream.discard_loss_bounded_partial",
    "Verif.Stream.discard_kill_loses_dump",
    "Verif.Stream.discard_restart_deletes_spilled"
   ],
   "note": "Proved for mirroring modes at every crash point; false with discard_grid_h5 (two witnesses), where the loss is bounded by one chunk."
  },
  {
   "property": "C11",
   "status": "partial",
   "theorems": [
    "Verif.Stream.restart_never_duplicates",
    "Verif.Stream.restart_in_place_exact",
    "Verif.Stream.restart_staged_exact_partial",
    "Verif.Stream.restart_after_spill_gap",
    "Verif.Stream.restart_midscan_gap"
   ],
   "note": "Proved at every kill point without staging; with staging only between scans without spills; two witnesses that it is false otherwise."
  },
  {
   "property": "C12",
   "status": "proved",
   "theorems": [
    "Verif.Stream.unreadable_isolated",
    "Verif.Stream.stream_exactly_once"
   ],
   "note": ""
  },
  {
   "property": "C13",
   "status": "partial",
   "theorems": [
    "Verif.Stream.completed_is_complete_partial",
    "Verif.Stream.finalize_overreports",
    "Verif.Stream.failed_close_overreports"
   ],
   "note": "False as stated (two witnesses); proved when the sweep reaches the diagnostic and no close fails."
  },
  {
   "property": "C14",
   "status": "proved",
   "theorems": [
    "Verif.Stream.log_throttle",
    "Verif.Stream.log_throttle_one"
   ],
   "note": ""
  },
  {
   "property": "C15",
   "status": "partial",
   "theorems": [
    "Verif.Runner.run_raises_iff_partial",
    "Verif.Runner.run_raises_iff_short",
    "Verif.Runner.run_salvaged",
    "Verif.Runner.run_without_binary",
    "Verif.Runner.warning_not_error",
    "Verif.Runner.early_error_missed"
   ],
   "note": "False as stated when an error line is printed more than 200 lines before the end (witness early_error_missed); proved exactly for the scanned tails, and in full for short outputs."
  },
  {
   "property": "C16",
   "status": "proved",
   "theorems": [
    "Verif.Runner.log_complete_and_tail",
    "Verif.Runner.tail_bounded"
   ],
   "note": ""
  },
  {
   "property": "C17",
   "status": "proved",
   "theorems": [
    "Verif.Runner.sync_keeps_existing",
    "Verif.Runner.sync_only_sources",
    "Verif.Runner.sync_copies_missing",
    "Verif.Runner.sync_idempotent"
   ],
   "note": ""
  },
  {
   "property": "C18",
   "status": "proved",
   "theorems": [
    "Verif.Runner.discover_first",
    "Verif.Runner.discover_raises_iff",
    "Verif.Runner.discover_configured_wins"
   ],
   "note": ""
  },
  {
   "property": "C19",
   "status": "proved",
   "theorems": [
    "Verif.Io.dump_name_parsed",
    "Verif.Io.h5_iff",
    "Verif.Io.iter_nonneg_iff",
    "Verif.Io.series_exact",
    "Verif.Io.file_in_one_series",
    "Verif.Io.series_order_independent",
    "Verif.Io.bare_directory"
   ],
   "note": ""
  },
  {
   "property": "C20",
   "status": "proved",
   "theorems": [
    "Verif.Io.index_selection",
    "Verif.Io.bad_index_rejected",
    "Verif.Io.empty_selection_rejected"
   ],
   "note": ""
  },
  {
   "property": "C45",
   "status": "partial",
   "theorems": [
    "Verif.Runner.staged_run_hands_over_partial",
    "Verif.Runner.durable_files_survive",
    "Verif.Runner.failed_sync_loses_files",
    "Verif.Runner.staging_needs_streaming"
   ],
   "note": "False when the final sync fails: scratch is removed all the same (witness). Proved for an uninterrupted sync; durable files survive always."
  },
  {
   "property": "C46",
   "status": "proved",
   "theorems": [
    "Verif.Runner.command_spec"
   ],
   "note": ""
  },
  {
   "property": "C47",
   "status": "partial",
   "theorems": [
    "Verif.Io.diagnostics_complete_partial",
    "Verif.Io.diagnostics_pure_partial",
    "Verif.Io.netcdf_fallback",
    "Verif.Io.clash_hides_series"
   ],
   "note": "False when a sub-directory is named like a report series (witness); proved for trees without such a clash."
  },
  {
   "property": "C48",
   "status": "proved",
   "theorems": [
    "Verif.Io.load_all",
    "Verif.Io.selection_same_from_nc",
    "Verif.Io.selection_slices"
   ],
   "note": ""
  },
  {
   "property": "C49",
   "status": "proved",
   "theorems": [
    "Verif.Io.save_isolated",
    "Verif.Io.wanted_iff",
    "Verif.Io.source_choice"
   ],
   "note": ""
  },
  {
   "property": "C50",
   "status": "proved",
   "theorems": [
    "Verif.Io.final_iter_spec",
    "Verif.Io.hist_rows",
    "Verif.Io.hist_rectangular",
    "Verif.Io.hist_columns",
    "Verif.Io.minWidth_attained"
   ],
   "note": ""
  },
  {
   "property": "C23",
   "status": "partial",
   "theorems": [
    "Verif.Utils.log_params_logged",
    "Verif.Utils.log_params_complete_iff_partial",
    "Verif.Utils.log_params_small_partial",
    "Verif.Utils.log_params_drops",
    "Verif.Utils.log_params_nothing"
   ],
   "note": "False as stated: above 100 parameters the number of batches is n % 100 (witness with 101). The exact set logged is characterised for every n."
  },
  {
   "property": "C24",
   "status": "partial",
   "theorems": [
    "Verif.Utils.flatten_sound",
    "Verif.Utils.flatten_exact_partial",
    "Verif.Utils.flatten_collision",
    "Verif.Utils.flatten_empty_key"
   ],
   "note": "False as stated for keys containing a dot or empty keys (witnesses); exact otherwise."
  },
  {
   "property": "C25",
   "status": "partial",
   "theorems": [
    "Verif.Grad.reduce_spec_partial",
    "Verif.Grad.reduce_bounded",
    "Verif.Grad.reduce_mean",
    "Verif.Grad.reduce_single_raises"
   ],
   "note": "False for a single run (UnboundLocalError, witness); exact for two or more."
  },
  {
   "property": "C26",
   "status": "proved",
   "theorems": [
    "Verif.Utils.retry_spec",
    "Verif.Utils.retry_stops"
   ],
   "note": ""
  },
  {
   "property": "C27",
   "status": "partial",
   "theorems": [
    "Verif.Lifecycle.run_needs_setup",
    "Verif.Lifecycle.ran_setup_iff",
    "Verif.Lifecycle.caller_config_untouched",
    "Verif.Lifecycle.setup_logs",
    "Verif.Lifecycle.setup_returns_iff",
    "Verif.Lifecycle.run_after_setup_partial",
    "Verif.Lifecycle.resetup_runs_half_initialised",
    "Verif.Lifecycle.run_id_stable"
   ],
   "note": "False as stated when a later setup fails half-way (witness): the ready flag stays set. Everything else holds for all histories."
  },
  {
   "property": "C28",
   "status": "proved",
   "theorems": [
    "Verif.Lifecycle.dispatch_iff",
    "Verif.Lifecycle.documented_injective",
    "Verif.Lifecycle.dispatch_x64",
    "Verif.Lifecycle.dispatch_unknown"
   ],
   "note": ""
  },
  {
   "property": "C30",
   "status": "proved",
   "theorems": [
    "Verif.Utils.filter_leaves",
    "Verif.Utils.filter_no_empty",
    "Verif.Utils.scalar_kinds"
   ],
   "note": ""
  },
  {
   "property": "C51",
   "status": "proved",
   "theorems": [
    "Verif.MlLog.run_id_roundtrip",
    "Verif.MlLog.run_id_injective"
   ],
   "note": ""
  },
  {
   "property": "C52",
   "status": "proved",
   "theorems": [
    "Verif.MlLog.logged_order",
    "Verif.MlLog.unlogged",
    "Verif.MlLog.logging_transparent",
    "Verif.MlLog.bad_call_no_effect"
   ],
   "note": ""
  },
  {
   "property": "C21",
   "status": "proved",
   "theorems": [
    "Verif.Density.scale_length_exact",
    "Verif.Density.scale_length_rounded",
    "Verif.Density.cells_not_coarser",
    "Verif.Density.rest_untouched",
    "Verif.Density.inactive_unchanged",
    "Verif.Density.bad_ramp_rejected"
   ],
   "note": "Exact arithmetic. scale_length_exact needs at least 4 fx values when min/max are imposed (with 3, both ends of the ramp are one point); the error of round(., 10) is bounded by scale_length_rounded."
  },
  {
   "property": "C29",
   "status": "proved",
   "theorems": [
    "Verif.Norm.normalize_number",
    "Verif.Norm.normalize_text",
    "Verif.Norm.normalize_rejects",
    "Verif.Norm.phase_invariant",
    "Verif.Norm.velocity_invariant"
   ],
   "note": "Exact arithmetic; unit parsing is pint's (external)."
  },
  {
   "property": "C53",
   "status": "proved",
   "theorems": [
    "Verif.Norm.electron_units",
    "Verif.Norm.ion_units",
    "Verif.Norm.debye_rejects",
    "Verif.Norm.laser_units",
    "Verif.Norm.osiris_units",
    "Verif.Norm.density_or_frequency"
   ],
   "note": ""
  },
  {
   "property": "C22",
   "status": "proved",
   "theorems": [
    "Verif.Grid.time_step_cfl",
    "Verif.Grid.time_covered",
    "Verif.Grid.cell_centres",
    "Verif.Grid.cells_in_box",
    "Verif.Grid.padded_axis",
    "Verif.Grid.wavenumbers",
    "Verif.Grid.time_axis_spacing"
   ],
   "note": "Exact arithmetic. time_axis_spacing shows that the stored time axis is not spaced by dt."
  },
  {
   "property": "C54",
   "status": "partial",
   "theorems": [
    "Verif.Grid.time_covered_vlasov2d",
    "Verif.Grid.time_covered_vfp1d",
    "Verif.Grid.time_covered_vfp2d",
    "Verif.Grid.time_covered_tf1d",
    "Verif.Grid.time_covered_hermite_poisson",
    "Verif.Grid.time_rounded_hermite_legendre_partial",
    "Verif.Grid.hermite_legendre_stops_early",
    "Verif.Grid.time_covered_lpse2d",
    "Verif.Grid.time_covered_spectrax"
   ],
   "note": "False for Hermite-Legendre, which rounds (witness); proved for all the others."
  },
  {
   "property": "C55",
   "status": "proved",
   "theorems": [
    "Verif.Fft.fft_size_spec",
    "Verif.Fft.fft_size_terminates"
   ],
   "note": ""
  },
  {
   "property": "C31",
   "status": "proved",
   "theorems": [
    "Verif.FP.central_is_finite_volume",
    "Verif.FP.chang_cooper_is_finite_volume",
    "Verif.FP.weighted_is_finite_volume",
    "Verif.FP.collisions_conserve_density",
    "Verif.FP.collisions_conserve_weighted"
   ],
   "note": "Exact arithmetic; the tridiagonal solver is any solution of its system. (The CentralDifferencing docstring says the scheme does not conserve density; it does.)"
  },
  {
   "property": "C32",
   "status": "proved",
   "theorems": [
    "Verif.FP.chang_cooper_positive",
    "Verif.FP.chang_cooper_unique",
    "Verif.FP.chang_cooper_monotone",
    "Verif.FP.chang_cooper_average",
    "Verif.FP.chang_cooper_contraction",
    "Verif.FP.central_positive_partial",
    "Verif.FP.central_unique_partial",
    "Verif.FP.central_negative"
   ],
   "note": "central_* concern the other scheme, which keeps positivity only for cell Peclet numbers up to 2 (witness above)."
  },
  {
   "property": "C33",
   "status": "partial",
   "theorems": [
    "Verif.FP.chang_cooper_fixed_partial",
    "Verif.FP.maxwellian_fixed_partial",
    "Verif.FP.super_gaussian_fixed_partial",
    "Verif.FP.chang_cooper_almost_fixed",
    "Verif.FP.log_mean_edge",
    "Verif.FP.log_mean_fixed",
    "Verif.FP.super_gaussian_root",
    "Verif.FP.maxwellian_root"
   ],
   "note": "Exact characterisation of the fixed points when no cell Peclet number lies strictly between 0 and 1e-8 in size; there the code evaluates a truncated series and the step moves the state by at most 6e-16 dt nu D/dv^2 of its density (chang_cooper_almost_fixed)."
  },
  {
   "property": "C34",
   "status": "proved",
   "theorems": [
    "Verif.FP.krook_maxwellian_norm",
    "Verif.FP.krook_relaxes",
    "Verif.FP.krook_step"
   ],
   "note": ""
  },
  {
   "property": "C35",
   "status": "proved",
   "theorems": [
    "Verif.FP.reference_species",
    "Verif.FP.only_reference_species",
    "Verif.FP.collide_switches",
    "Verif.FP.fp_kinds"
   ],
   "note": ""
  },
  {
   "property": "C56",
   "status": "partial",
   "theorems": [
    "Verif.FP.dougherty_momentum_budget",
    "Verif.FP.dougherty_energy_budget"
   ],
   "note": "Exact budgets; exact energy conservation, as documented, does not hold."
  },
  {
   "property": "C57",
   "status": "partial",
   "theorems": [
    "Verif.FP.nodrag_conserves_density",
    "Verif.FP.nodrag_maxwellian_not_fixed"
   ],
   "note": "Density conservation proved; the documented fixed point is refuted for every Maxwellian on three or more cells."
  },
  {
   "property": "C36",
   "status": "partial",
   "theorems": [
    "Verif.Spectral.shift_modes",
    "Verif.Spectral.shift_conserves",
    "Verif.Spectral.shift_zero",
    "Verif.Spectral.shift_cells",
    "Verif.Spectral.shift_add_partial",
    "Verif.Spectral.shift_add_fails",
    "Verif.Spectral.shift_sum_sq",
    "Verif.Spectral.edfdv_density",
    "Verif.Spectral.vdfdx_moments",
    "Verif.Spectral.vdfdx_cells",
    "Verif.Spectral.advection_conserves",
    "Verif.Spectral.round_trip_length"
   ],
   "note": "Conservation and identity proved; successive shifts add only without the grid-scale (Nyquist) oscillation, and shift_add_fails shows that restriction is needed. Odd grid lengths are changed by the code (round_trip_length)."
  },
  {
   "property": "C37",
   "status": "proved",
   "theorems": [
    "Verif.Spectral.poisson_field",
    "Verif.Spectral.poisson_unique",
    "Verif.Spectral.boltzmann_field"
   ],
   "note": "Every resolved wave; the Nyquist component of the field is zero."
  },
  {
   "property": "C38",
   "status": "partial",
   "theorems": [
    "Verif.Spectral.step_drift",
    "Verif.Spectral.drift_total",
    "Verif.Spectral.step_kick_partial",
    "Verif.Spectral.kick_total",
    "Verif.Spectral.kick_total_short",
    "Verif.Spectral.sixth_kick_short",
    "Verif.Spectral.sixth_driver_times",
    "Verif.Spectral.leapfrog_driver",
    "Verif.Spectral.sixth_reversible",
    "Verif.Spectral.uniform_reversible",
    "Verif.Pic.yoshida_substeps",
    "Verif.Pic.kdk_uniform",
    "Verif.Pic.push_constant",
    "Verif.Pic.kdk_reversible",
    "Verif.Pic.yoshida_reversible"
   ],
   "note": "Drifts add up to dt and the sixth-order step is exactly reversible; its kicks add up to less than dt (sixth_kick_short), so that part of the claim is false of the code. The particle integrators satisfy the claim in full."
  },
  {
   "property": "C58",
   "status": "proved",
   "theorems": [
    "Verif.Spectral.poisson_step_gauss",
    "Verif.Spectral.poisson_run_gauss",
    "Verif.Spectral.hampere_step_gauss",
    "Verif.Spectral.hampere_run_gauss",
    "Verif.Spectral.hampere_gauss_forever",
    "Verif.Spectral.accepts_iff",
    "Verif.Pic.push_fields",
    "Verif.Pic.push_gauss"
   ],
   "note": ""
  },
  {
   "property": "C59",
   "status": "proved",
   "theorems": [
    "Verif.Spectral.houLi_factors",
    "Verif.Spectral.houLi_filter",
    "Verif.Spectral.houLi_order_zero"
   ],
   "note": ""
  },
  {
   "property": "C60",
   "status": "proved",
   "theorems": [
    "Verif.Spectral.step_number",
    "Verif.Spectral.run_number",
    "Verif.Spectral.run_parameters"
   ],
   "note": ""
  },
  {
   "property": "C39",
   "status": "proved",
   "theorems": [
    "Verif.Pic.stencil_weights",
    "Verif.Pic.deposit_total",
    "Verif.Pic.deposit_nonneg",
    "Verif.Pic.gather_bounds",
    "Verif.Pic.gather_const",
    "Verif.Pic.gather_linear",
    "Verif.Pic.deposit_translate",
    "Verif.Pic.gather_periodic",
    "Verif.Pic.deposit_mirror"
   ],
   "note": ""
  },
  {
   "property": "C40",
   "status": "proved",
   "theorems": [
    "Verif.Pic.gather_adjoint",
    "Verif.Pic.kick_momentum",
    "Verif.Pic.self_force_zero",
    "Verif.Pic.run_momentum"
   ],
   "note": "Uniform or no static background; with a non-uniform background or a driver, kick_momentum gives the exact force balance."
  },
  {
   "property": "C41",
   "status": "proved",
   "theorems": [
    "Verif.Pic.wrap_range",
    "Verif.Pic.wrap_id",
    "Verif.Pic.drift_effect",
    "Verif.Pic.kick_effect",
    "Verif.Pic.run_keeps",
    "Verif.Pic.run_inBox"
   ],
   "note": ""
  },
  {
   "property": "C61",
   "status": "proved",
   "theorems": [
    "Verif.Pic.kick_light",
    "Verif.Pic.kick_light_slope",
    "Verif.Pic.kick_light_sign"
   ],
   "note": ""
  },
  {
   "property": "C44",
   "status": "partial",
   "theorems": [
    "Verif.Driver.envelope_range",
    "Verif.Driver.envelope_range_neg",
    "Verif.Driver.envelope_complement",
    "Verif.Driver.envelope_symmetric",
    "Verif.Driver.shape_decreasing",
    "Verif.Driver.envelope_peak",
    "Verif.Driver.envelope_edge",
    "Verif.Driver.envelope_far",
    "Verif.Driver.envelope_negative_rise",
    "Verif.Driver.getEnvelope_bump",
    "Verif.Driver.getEnvelope_inside",
    "Verif.Driver.getEnvelope_negative"
   ],
   "note": "Range 0..1, symmetry, peak and decay proved for equal positive rises. False in general: a negative rise or two different rises make the envelope leave 0..1 (envelope_negative_rise, getEnvelope_negative are proved counterexamples)."
  },
  {
   "property": "C62",
   "status": "proved",
   "theorems": [
    "Verif.Wave.step_off",
    "Verif.Wave.step_prev",
    "Verif.Wave.step_wave_equation",
    "Verif.Wave.step_plane_wave",
    "Verif.Wave.abc_outgoing",
    "Verif.Wave.step_leftgoing",
    "Verif.Wave.step_uniform",
    "Verif.Wave.step_mirror",
    "Verif.Wave.step_linear",
    "Verif.Wave.pulse_leaves",
    "Verif.Wave.pulse_gone",
    "Verif.Wave.split_sum",
    "Verif.Wave.split_rightgoing",
    "Verif.Wave.split_leftgoing"
   ],
   "note": ""
  },
  {
   "property": "C63",
   "status": "proved",
   "theorems": [
    "Verif.Wave.picStep_keeps",
    "Verif.Wave.picRun_keeps",
    "Verif.Wave.picRun_consistent",
    "Verif.Wave.picRun_electrostatic",
    "Verif.Wave.no_electron_vacuum",
    "Verif.Wave.picStep_wave",
    "Verif.Wave.savedMoment_total",
    "Verif.Wave.savedNumber_constant",
    "Verif.Pic.names_known",
    "Verif.Pic.names_mean"
   ],
   "note": "no_electron_vacuum documents that a run whose species is not literally named electron has no plasma response on the wave."
  },
  {
   "property": "C64",
   "status": "partial",
   "theorems": [
    "Verif.Driver.resolveAKW_both",
    "Verif.Driver.resolveAKW_one_fails",
    "Verif.Driver.resolveAKW_iff",
    "Verif.Driver.exField_sum",
    "Verif.Driver.exField_perm",
    "Verif.Driver.exField_append",
    "Verif.Driver.exField_off",
    "Verif.Driver.exSingle_wave",
    "Verif.Driver.exSingle_bound",
    "Verif.Driver.nearest_spec",
    "Verif.Driver.eySingle_point",
    "Verif.Driver.eySingle_extended",
    "Verif.Driver.eySource_sum",
    "Verif.Driver.eySource_perm"
   ],
   "note": "Superposition, order independence, waveform and bound proved. The configuration clause is false: giving only one of the two alternatives crashes (resolveAKW_one_fails is the proved counterexample, resolveAKW_iff the exact condition)."
  },
  {
   "property": "C65",
   "status": "proved",
   "theorems": [
    "Verif.Driver.dtUpdate_le",
    "Verif.Driver.dtUpdate_default",
    "Verif.Driver.dtUpdate_pos",
    "Verif.Driver.series_covers",
    "Verif.Driver.ou_variance",
    "Verif.Driver.ou_stationary",
    "Verif.Driver.uncorrelated_exists",
    "Verif.Driver.stochField_periodic"
   ],
   "note": "Random draws enter as square-integrable variables with the moments of independent standard normals; no statement about the generator itself."
  },
  {
   "property": "C66",
   "status": "partial",
   "theorems": [
    "Verif.PicLoad.interp_range",
    "Verif.PicLoad.interp_linear",
    "Verif.PicLoad.counts_ok_iff",
    "Verif.PicLoad.counts_total",
    "Verif.PicLoad.counts_share",
    "Verif.PicLoad.counts_last",
    "Verif.PicLoad.counts_last_fails",
    "Verif.PicLoad.counts_last_starved",
    "Verif.PicLoad.quiet_positions",
    "Verif.PicLoad.quiet_flat_weight",
    "Verif.PicLoad.quiet_weight_nonneg",
    "Verif.PicLoad.load_number",
    "Verif.PicLoad.load_flat",
    "Verif.PicLoad.load_truncated",
    "Verif.PicLoad.resize_entry",
    "Verif.PicLoad.random_load",
    "Verif.PicLoad.background_neutral"
   ],
   "note": "Every configured sub-population represented is false: rounding can leave the last one without particles, crash or silently truncate (counts_last_fails, counts_last_starved, load_truncated). Total weight equal to the density integral proved for flat profiles in the quiet load and for the random load."
  },
  {
   "property": "C67",
   "status": "partial",
   "theorems": [
    "Verif.CubicSpline.shiftChecked_iff",
    "Verif.CubicSpline.push_shift",
    "Verif.CubicSpline.shiftRow_inside",
    "Verif.CubicSpline.shiftRow_last",
    "Verif.CubicSpline.shiftRow_outside",
    "Verif.CubicSpline.shiftRow_cells",
    "Verif.CubicSpline.shiftRow_zero",
    "Verif.CubicSpline.shiftRow_linear",
    "Verif.CubicSpline.shiftRow_parabola",
    "Verif.CubicSpline.interior_moments",
    "Verif.CubicSpline.shiftRow_moments",
    "Verif.CubicSpline.shiftRow_negative"
   ],
   "note": "All clauses proved except non-negativity, which is false: shiftRow_negative is the counterexample."
  },
  {
   "property": "C42",
   "status": "proved",
   "theorems": [
    "Verif.Vfp.check_iff",
    "Verif.Vfp.default_boundary_ok",
    "Verif.Vfp.vol_total",
    "Verif.Vfp.div_total",
    "Verif.Vfp.div_conserves",
    "Verif.Vfp.div_centre",
    "Verif.Vfp.pushX_ends",
    "Verif.Vfp.pushX_shell",
    "Verif.Vfp.pushX_number",
    "Verif.Vfp.pushX_energy",
    "Verif.Vfp.vdfdx_linear",
    "Verif.Vfp.vdfdx_norm"
   ],
   "note": "Planar and spherical; every explicit Runge-Kutta method."
  },
  {
   "property": "C43",
   "status": "proved",
   "theorems": [
    "Verif.Vfp.mixture_neutral",
    "Verif.Vfp.mixture_scattering",
    "Verif.Vfp.mixture_accepted",
    "Verif.Vfp.single_neutral",
    "Verif.Vfp.plain_neutral"
   ],
   "note": ""
  },
  {
   "property": "C68",
   "status": "proved",
   "theorems": [
    "Verif.Vfp.edfdv_density",
    "Verif.Vfp.edfdv_energy",
    "Verif.Vfp.edfdv_current",
    "Verif.Vfp.pushE_density",
    "Verif.Vfp.leak_zero"
   ],
   "note": "Exact budgets; the top-of-grid terms are explicit."
  },
  {
   "property": "C69",
   "status": "partial",
   "theorems": [
    "Verif.Vfp.step_ends",
    "Verif.Vfp.run_ends",
    "Verif.Vfp.step_keeps",
    "Verif.Vfp.step_solvers",
    "Verif.Vfp.step_number",
    "Verif.Vfp.step_equilibrium",
    "Verif.Vfp.collide_conserves"
   ],
   "note": "Every clause proved except that every advertised solver works: edfdv-ampere-implicit fails on every grid of more than one cell (step_solvers)."
  },
  {
   "property": "C70",
   "status": "partial",
   "theorems": [
    "Verif.Vfp.pushE_zero",
    "Verif.Vfp.implicitE_cancels",
    "Verif.Vfp.one_stage_affine"
   ],
   "note": "Proved when the current is an affine function of the field, which holds for one-stage methods and linear collisions; the code uses a multi-stage method, for which the field is the root of a secant line."
  },
  {
   "property": "C71",
   "status": "partial",
   "theorems": [
    "Verif.Vfp.limited_bound_partial",
    "Verif.Vfp.limited_negative",
    "Verif.Vfp.limited_copies",
    "Verif.Vfp.initial_current_free",
    "Verif.Vfp.initial_single",
    "Verif.Vfp.initial_doubles"
   ],
   "note": "False in general: flux limit applied before the density scaling (limited_negative), periodic copies limited by different cells (limited_copies), anisotropy added once per species (initial_doubles)."
  },
  {
   "property": "C72",
   "status": "proved",
   "theorems": [
    "Verif.Vfp.model_names",
    "Verif.Vfp.scheme_names",
    "Verif.Vfp.default_collisions",
    "Verif.Vfp.f0_density",
    "Verif.Vfp.f0_chang_cooper"
   ],
   "note": "The tridiagonal solve is any solution of its system."
  },
  {
   "property": "C73",
   "status": "partial",
   "theorems": [
    "Verif.Vfp.logMean_accurate",
    "Verif.Vfp.kernel_symmetric",
    "Verif.Vfp.f0_energy_tendency",
    "Verif.Vfp.f0_energy_step",
    "Verif.Vfp.central_loses_energy"
   ],
   "note": "Proved for the log-mean scheme on distributions above its floors; false for the default central scheme, which loses energy on every decreasing distribution (central_loses_energy)."
  },
  {
   "property": "C74",
   "status": "partial",
   "theorems": [
    "Verif.Vfp.f0_equilibrium",
    "Verif.Vfp.f0_equilibrium_chang_cooper",
    "Verif.Vfp.fast_equilibrium_partial",
    "Verif.Vfp.fast_root",
    "Verif.Vfp.central_moves_maxwellian"
   ],
   "note": "Proved for log-mean and Chang-Cooper differences above their floors; false for the default central scheme (central_moves_maxwellian)."
  },
  {
   "property": "C75",
   "status": "partial",
   "theorems": [
    "Verif.Vfp.heat_zero",
    "Verif.Vfp.heat_passed",
    "Verif.Vfp.diffusion_monotone",
    "Verif.Vfp.ib_heats",
    "Verif.Vfp.ib_ratio_agrees"
   ],
   "note": "The resonance factor uses the charge relative to the reference charge: the rates agree exactly when the reference charge is one (ib_ratio_agrees). Heating clause proved without collisions, central and Chang-Cooper."
  },
  {
   "property": "C76",
   "status": "proved",
   "theorems": [
    "Verif.Vfp.harmonic_order",
    "Verif.Vfp.scaled_damping",
    "Verif.Vfp.full_step",
    "Verif.Vfp.full_without_background",
    "Verif.Vfp.full_linear"
   ],
   "note": "The explicit off-diagonal electron-electron contribution is a parameter."
  },
  {
   "property": "C77",
   "status": "proved",
   "theorems": [
    "Verif.Vfp.logLambda_known",
    "Verif.Vfp.logLambda_spec"
   ],
   "note": ""
  },
  {
   "property": "C78",
   "status": "proved",
   "theorems": [
    "Verif.HeatFlux.eh_range",
    "Verif.HeatFlux.eh_values",
    "Verif.HeatFlux.sh_down_gradient",
    "Verif.HeatFlux.sh_reference",
    "Verif.HeatFlux.flux_ends",
    "Verif.HeatFlux.heat_conserved",
    "Verif.HeatFlux.group_equation",
    "Verif.HeatFlux.group_bound",
    "Verif.HeatFlux.snb_unique",
    "Verif.HeatFlux.uniform_no_flux",
    "Verif.HeatFlux.cdf_spectrum",
    "Verif.HeatFlux.weights_share",
    "Verif.HeatFlux.snb_balance",
    "Verif.HeatFlux.group_exchange",
    "Verif.HeatFlux.vol_total",
    "Verif.HeatFlux.sh_density_free",
    "Verif.HeatFlux.paths"
   ],
   "note": "Every physical plasma, planar and spherical; solve_banded is the relation of an exact solve."
  },
  {
   "property": "C79",
   "status": "proved",
   "theorems": [
    "Verif.Vfp2d.layout_iff",
    "Verif.Vfp2d.layout_index",
    "Verif.Vfp2d.layout_size"
   ],
   "note": ""
  },
  {
   "property": "C80",
   "status": "proved",
   "theorems": [
    "Verif.Vfp2d.streaming_continuity",
    "Verif.Vfp2d.streaming_momentum",
    "Verif.Vfp2d.streaming_shell",
    "Verif.Vfp2d.streaming_number",
    "Verif.Vfp2d.streaming_norm",
    "Verif.Vfp2d.deriv_wave"
   ],
   "note": "Exact arithmetic; spectral and both central derivatives."
  },
  {
   "property": "C81",
   "status": "partial",
   "theorems": [
    "Verif.Vfp2d.magnetic_isotropic",
    "Verif.Vfp2d.magnetic_norm",
    "Verif.Vfp2d.magnetic_flux",
    "Verif.Vfp2d.magnetic_lorentz_iff",
    "Verif.Vfp2d.magnetic_lorentz_partial"
   ],
   "note": "The rotation is the Lorentz one for Bx only: By and Bz turn the flux the wrong way (magnetic_flux, magnetic_lorentz_iff with a witness)."
  },
  {
   "property": "C82",
   "status": "proved",
   "theorems": [
    "Verif.Vfp2d.electric_isotropic",
    "Verif.Vfp2d.electric_density",
    "Verif.Vfp2d.electric_energy",
    "Verif.Vfp2d.electric_vector",
    "Verif.Vfp2d.electric_momentum",
    "Verif.Vfp2d.electric_direction"
   ],
   "note": "Exact budgets, boundary and spacing terms explicit."
  },
  {
   "property": "C83",
   "status": "partial",
   "theorems": [
    "Verif.Vfp2d.magnetic_divergence",
    "Verif.Vfp2d.electric_divergence",
    "Verif.Vfp2d.field_energy",
    "Verif.Vfp2d.light_x",
    "Verif.Vfp2d.light_y",
    "Verif.Vfp2d.charge_continuity",
    "Verif.Vfp2d.leak_zero",
    "Verif.Vfp2d.gauss_kept",
    "Verif.Vfp2d.drivers_enter",
    "Verif.Vfp2d.split_gauss",
    "Verif.Vfp2d.gauss_step_partial",
    "Verif.Vfp2d.leak_even",
    "Verif.Vfp2d.split_number",
    "Verif.Vfp2d.vacuum_step",
    "Verif.Vfp2d.poisson_gauss",
    "Verif.Vfp2d.initial_state",
    "Verif.Vfp2d.deriv_real_iff",
    "Verif.Vfp2d.rate_equilibrium",
    "Verif.Vfp2d.rate_real"
   ],
   "note": "Gauss's law is kept for odd ny or difference derivatives; with the Fourier derivative on an even ny the z flux at the Nyquist wave leaks into the density (leak_even). poisson_gauss asks that the charge has no Nyquist wave."
  },
  {
   "property": "C84",
   "status": "proved",
   "theorems": [
    "Verif.Vfp2d.positive_spec",
    "Verif.Vfp2d.positive_shape",
    "Verif.Vfp2d.project_current",
    "Verif.Vfp2d.project_spec",
    "Verif.Vfp2d.cartesian_symmetric",
    "Verif.Vfp2d.real_storage"
   ],
   "note": "tiny is any positive number."
  },
  {
   "property": "C85",
   "status": "partial",
   "theorems": [
    "Verif.Vfp2d.ohm_pressure",
    "Verif.Vfp2d.ohm_magnetic",
    "Verif.Vfp2d.ohm_magnetic_operator",
    "Verif.Vfp2d.ohm_work",
    "Verif.Vfp2d.ohm_uniform",
    "Verif.Vfp2d.ohm_isotropic",
    "Verif.Vfp2d.streaming_flux"
   ],
   "note": "The magnetic terms balance the kinetic magnetic operator only with By and Bz reversed (see C81); the pressure terms are exact for the non-relativistic streaming speed."
  },
  {
   "property": "C86",
   "status": "proved",
   "theorems": [
    "Verif.Vfp2d.run_form",
    "Verif.Vfp2d.rk4_order",
    "Verif.Vfp2d.run_current",
    "Verif.Vfp2d.run_positive",
    "Verif.Vfp2d.run_div",
    "Verif.Vfp2d.run_equilibrium",
    "Verif.Vfp2d.run_number"
   ],
   "note": "The RK4 scheme is a separate specification whose order is checked on polynomials and the linear equation."
  },
  {
   "property": "C87",
   "status": "proved",
   "theorems": [
    "Verif.Vfp2d.gate_spec",
    "Verif.Vfp2d.gate_smooth",
    "Verif.Vfp2d.hidden_spec",
    "Verif.Vfp2d.collide_args",
    "Verif.Vfp2d.collision_step",
    "Verif.Vfp2d.aniso_iff"
   ],
   "note": "The collision operators are parameters."
  },
  {
   "property": "C88",
   "status": "partial",
   "theorems": [
    "Verif.Vfp2d.houLi_wave",
    "Verif.Vfp2d.houLi_sum",
    "Verif.Vfp2d.houLi_real",
    "Verif.Vfp2d.houLi_norm",
    "Verif.Vfp2d.houLi_const",
    "Verif.Vfp2d.houLi2D_spec",
    "Verif.Vfp2d.houLi2D_commute",
    "Verif.Vfp2d.filter_divergence",
    "Verif.Vfp2d.shards_cover",
    "Verif.Vfp2d.padded_eq",
    "Verif.Vfp2d.partitioned_derivative",
    "Verif.Vfp2d.partition_independent",
    "Verif.Vfp2d.partition_dependent",
    "Verif.Vfp2d.partitioned_filter",
    "Verif.Vfp2d.diffFilter_wave",
    "Verif.Vfp2d.diffFilter_sum",
    "Verif.Vfp2d.diffFilter_nyquist",
    "Verif.Vfp2d.sharding_iff",
    "Verif.Vfp2d.houLi_ok_iff"
   ],
   "note": "Results depend on the number of devices when blocks are short (partition_dependent): below 2 cells per device the derivative and below 4 the filter change order; independence is proved above that."
  },
  {
   "property": "C89",
   "status": "proved",
   "theorems": [
    "Verif.Vfp2d.run_end",
    "Verif.Vfp2d.mode_iff"
   ],
   "note": ""
  },
  {
   "property": "C90",
   "status": "partial",
   "theorems": [
    "Verif.Vlasov2d.streamX_number",
    "Verif.Vlasov2d.streamY_number",
    "Verif.Vlasov2d.push_density",
    "Verif.Vlasov2d.kinetic_number",
    "Verif.Vlasov2d.kinetic_number_partial",
    "Verif.Vlasov2d.rotation_loses",
    "Verif.Vlasov2d.sl_loses",
    "Verif.Vlasov2d.step_species",
    "Verif.Vlasov2d.step_number",
    "Verif.Vlasov2d.run_number_partial"
   ],
   "note": "False with a magnetic field (rotation_loses) and for the semi-Lagrangian acceleration (sl_loses)."
  },
  {
   "property": "C91",
   "status": "proved",
   "theorems": [
    "Verif.Vlasov2d.rotation_characteristic",
    "Verif.Vlasov2d.orbit_exists",
    "Verif.Vlasov2d.rotation_transports",
    "Verif.Vlasov2d.rotation_speed",
    "Verif.Vlasov2d.sl_characteristic",
    "Verif.Vlasov2d.axis_val",
    "Verif.Vlasov2d.axis_inj",
    "Verif.Vlasov2d.axis_mirror",
    "Verif.Vlasov2d.quarter_turn",
    "Verif.Vlasov2d.axis_uniform",
    "Verif.Vlasov2d.push_cells",
    "Verif.Vlasov2d.stream_cells"
   ],
   "note": "The interpolation is a parameter."
  },
  {
   "property": "C92",
   "status": "partial",
   "theorems": [
    "Verif.Vlasov2d.free_streaming",
    "Verif.Vlasov2d.free_streaming_cells",
    "Verif.Vlasov2d.kinetic_reversible_partial"
   ],
   "note": "Reversibility for odd grids without magnetic field."
  },
  {
   "property": "C93",
   "status": "proved",
   "theorems": [
    "Verif.Vlasov2d.curl_adjoint",
    "Verif.Vlasov2d.maxwell_work",
    "Verif.Vlasov2d.maxwell_vacuum_energy",
    "Verif.Vlasov2d.maxwell_reversible",
    "Verif.Vlasov2d.maxwell_div",
    "Verif.Vlasov2d.maxwell_means"
   ],
   "note": ""
  },
  {
   "property": "C94",
   "status": "partial",
   "theorems": [
    "Verif.Vlasov2d.vacuum_stable_partial",
    "Verif.Vlasov2d.vacuum_dispersion",
    "Verif.Vlasov2d.amp_grows",
    "Verif.Vlasov2d.vacuum_unstable",
    "Verif.Vlasov2d.capped_step_unstable"
   ],
   "note": "The time step the grid imposes is above the stability limit (capped_step_unstable)."
  },
  {
   "property": "C95",
   "status": "partial",
   "theorems": [
    "Verif.Vlasov2d.step_gauss",
    "Verif.Vlasov2d.gauss_not_kept"
   ],
   "note": "The conservation a user expects is false; the exact change and a witness are proved."
  },
  {
   "property": "C96",
   "status": "partial",
   "theorems": [
    "Verif.Vlasov2d.column_density",
    "Verif.Vlasov2d.column_momentum",
    "Verif.Vlasov2d.column_energy",
    "Verif.Vlasov2d.column_positive_partial",
    "Verif.Vlasov2d.dougherty_density",
    "Verif.Vlasov2d.krook_density",
    "Verif.Vlasov2d.krook_relaxes",
    "Verif.Vlasov2d.krook_wrong_temperature",
    "Verif.Vlasov2d.collide_density",
    "Verif.Vlasov2d.collisions_iff",
    "Verif.Vlasov2d.solver_exists"
   ],
   "note": "Energy is not exactly conserved as documented (column_energy); Krook's temperature ignores the species (krook_wrong_temperature)."
  },
  {
   "property": "C97",
   "status": "partial",
   "theorems": [
    "Verif.Vlasov2d.initial_density",
    "Verif.Vlasov2d.initialised_ok",
    "Verif.Vlasov2d.shards_equal",
    "Verif.Vlasov2d.shards_wrong"
   ],
   "note": "False for pieces divided over velocity devices (shards_wrong)."
  },
  {
   "property": "C98",
   "status": "proved",
   "theorems": [
    "Verif.Vlasov2d.electrons_neutral",
    "Verif.Vlasov2d.other_charge",
    "Verif.Vlasov2d.initial_gauss"
   ],
   "note": ""
  },
  {
   "property": "C99",
   "status": "proved",
   "theorems": [
    "Verif.Vlasov2d.mesh_iff",
    "Verif.Vlasov2d.mesh_default",
    "Verif.Vlasov2d.sharded_iff"
   ],
   "note": "Negative mesh shapes with the right product pass this validation."
  },
  {
   "property": "C100",
   "status": "proved",
   "theorems": [
    "Verif.Vlasov2d.driver_sum",
    "Verif.Vlasov2d.driver_wave",
    "Verif.Vlasov2d.step_driver",
    "Verif.Vlasov2d.driver_mean"
   ],
   "note": ""
  },
  {
   "property": "C101",
   "status": "proved",
   "theorems": [
    "Verif.Vlasov2d.filter_conserves"
   ],
   "note": ""
  },
  {
   "property": "C102",
   "status": "proved",
   "theorems": [
    "Verif.Vlasov2d.moments_energy",
    "Verif.Vlasov2d.meanN_number",
    "Verif.Vlasov2d.meanKE_moments",
    "Verif.Vlasov2d.moments_nonneg",
    "Verif.Vlasov2d.equilibrium",
    "Verif.Vlasov2d.no_drift_current"
   ],
   "note": ""
  },
  {
   "property": "C103",
   "status": "proved",
   "theorems": [
    "Verif.Hermite.eigh_exists",
    "Verif.Hermite.stream_zero",
    "Verif.Hermite.stream_add",
    "Verif.Hermite.stream_mean",
    "Verif.Hermite.stream_norm",
    "Verif.Hermite.stream_choice",
    "Verif.Hermite.stream_moments",
    "Verif.Hermite.stream_transport",
    "Verif.Hermite.stream_real"
   ],
   "note": "The eigensolver is any one that meets its contract."
  },
  {
   "property": "C104",
   "status": "partial",
   "theorems": [
    "Verif.Hermite.damping_semigroup",
    "Verif.Hermite.damping_contracts",
    "Verif.Hermite.collision_profile",
    "Verif.Hermite.collision_spectra",
    "Verif.Hermite.collisions_conserve",
    "Verif.Hermite.houli_profile",
    "Verif.Hermite.filter_loses",
    "Verif.Hermite.linear_not_flow",
    "Verif.Hermite.linear_keeps"
   ],
   "note": "The last clause is false: streaming and damping do not commute, so the linear step is not a flow (linear_not_flow); the knee filter and order zero remove particles (filter_loses)."
  },
  {
   "property": "C105",
   "status": "proved",
   "theorems": [
    "Verif.Hermite.represents_exists",
    "Verif.Hermite.represents_of",
    "Verif.Hermite.represents_unique",
    "Verif.Hermite.force_series",
    "Verif.Hermite.force_shift",
    "Verif.Hermite.force_add",
    "Verif.Hermite.force_reverse",
    "Verif.Hermite.force_masked",
    "Verif.Hermite.force_density",
    "Verif.Hermite.coupling_rate",
    "Verif.Hermite.coupling_density"
   ],
   "note": ""
  },
  {
   "property": "C106",
   "status": "proved",
   "theorems": [
    "Verif.Hermite.hermite_gauss",
    "Verif.Hermite.density_moment"
   ],
   "note": ""
  },
  {
   "property": "C107",
   "status": "proved",
   "theorems": [
    "Verif.Hermite.lawson_rk4",
    "Verif.Hermite.lawson_invariant",
    "Verif.Hermite.mask23_zero",
    "Verif.Hermite.mask23_symm",
    "Verif.Hermite.keeps_density",
    "Verif.Hermite.run_particles",
    "Verif.Hermite.ions_static",
    "Verif.Hermite.momentum_moment",
    "Verif.Hermite.run_momentum"
   ],
   "note": ""
  },
  {
   "property": "C108",
   "status": "proved",
   "theorems": [
    "Verif.Hermite.equilibrium"
   ],
   "note": ""
  },
  {
   "property": "C109",
   "status": "proved",
   "theorems": [
    "Verif.Hermite.pond_charge",
    "Verif.Hermite.pond_value",
    "Verif.Hermite.pond_exact"
   ],
   "note": ""
  },
  {
   "property": "C110",
   "status": "partial",
   "theorems": [
    "Verif.Hermite.linear_response",
    "Verif.Hermite.linear_superposition",
    "Verif.Hermite.clip_spec",
    "Verif.Hermite.setup_accepts",
    "Verif.Hermite.lawson_ignores"
   ],
   "note": "The last clause is false: lawson-rk4 ignores linear response, the density limit and the number of terms (lawson_ignores)."
  },
  {
   "property": "C111",
   "status": "proved",
   "theorems": [
    "Verif.Hermite.pulses_add",
    "Verif.Hermite.window_spec",
    "Verif.Hermite.longitudinal_pulse",
    "Verif.Hermite.pulse_refused",
    "Verif.Hermite.radiated_solves",
    "Verif.Hermite.antenna_solves",
    "Verif.Hermite.point_antenna",
    "Verif.Hermite.point_amplitude",
    "Verif.Hermite.extended_strength",
    "Verif.Hermite.extended_antenna"
   ],
   "note": ""
  },
  {
   "property": "C112",
   "status": "partial",
   "theorems": [
    "Verif.Hermite.initial_density",
    "Verif.Hermite.initial_modes",
    "Verif.Hermite.initial_nyquist"
   ],
   "note": "False for mode 0 and N (they replace the mean), beyond N (ignored) and at the Nyquist mode (half the amplitude)."
  },
  {
   "property": "C113",
   "status": "proved",
   "theorems": [
    "Verif.Hermite.sponge_effect"
   ],
   "note": ""
  },
  {
   "property": "C128",
   "status": "partial",
   "theorems": [
    "Verif.Hermite.exp_flow",
    "Verif.Hermite.strang_free",
    "Verif.Hermite.strang_reversible",
    "Verif.Hermite.step_light"
   ],
   "note": "The last clause is false for lawson-rk4: step_light shows its light follows the antenna half a step ahead."
  },
  {
   "property": "C114",
   "status": "proved",
   "theorems": [
    "Verif.HermiteLegendre.legendre_basis",
    "Verif.HermiteLegendre.velocity_matrix",
    "Verif.HermiteLegendre.derivative_matrix",
    "Verif.HermiteLegendre.derivative_expansion",
    "Verif.HermiteLegendre.end_values"
   ],
   "note": ""
  },
  {
   "property": "C115",
   "status": "proved",
   "theorems": [
    "Verif.HermiteLegendre.integral_dist",
    "Verif.HermiteLegendre.moments_are_integrals"
   ],
   "note": ""
  },
  {
   "property": "C116",
   "status": "proved",
   "theorems": [
    "Verif.HermiteLegendre.exp_rate",
    "Verif.HermiteLegendre.stream_galerkin",
    "Verif.HermiteLegendre.hermite_velocity",
    "Verif.HermiteLegendre.absorber",
    "Verif.HermiteLegendre.exp_means"
   ],
   "note": ""
  },
  {
   "property": "C117",
   "status": "proved",
   "theorems": [
    "Verif.HermiteLegendre.mixed_gauss",
    "Verif.HermiteLegendre.density_dist",
    "Verif.HermiteLegendre.potential_field"
   ],
   "note": "The potential and field agree at every mode but the Nyquist mode of an even grid, where the field is cut."
  },
  {
   "property": "C118",
   "status": "proved",
   "theorems": [
    "Verif.HermiteLegendre.mode_weak",
    "Verif.HermiteLegendre.legendre_weak",
    "Verif.HermiteLegendre.hermite_flux",
    "Verif.HermiteLegendre.hermite_derivative",
    "Verif.HermiteLegendre.coupling_closure",
    "Verif.HermiteLegendre.half_penalty_skew",
    "Verif.HermiteLegendre.force_moments"
   ],
   "note": ""
  },
  {
   "property": "C119",
   "status": "proved",
   "theorems": [
    "Verif.HermiteLegendre.cayley_hermite",
    "Verif.HermiteLegendre.cayley_skew",
    "Verif.HermiteLegendre.cayley_woodbury",
    "Verif.HermiteLegendre.force_midpoint",
    "Verif.HermiteLegendre.implicit_euler",
    "Verif.HermiteLegendre.hermite_solvable",
    "Verif.HermiteLegendre.half_solvable"
   ],
   "note": ""
  },
  {
   "property": "C120",
   "status": "proved",
   "theorems": [
    "Verif.HermiteLegendre.split_conserves",
    "Verif.HermiteLegendre.delta_spec",
    "Verif.HermiteLegendre.correct_spec",
    "Verif.HermiteLegendre.split_scheme",
    "Verif.HermiteLegendre.split_uncorrected",
    "Verif.HermiteLegendre.corrector_midpoint",
    "Verif.HermiteLegendre.split_free",
    "Verif.HermiteLegendre.setup_exists"
   ],
   "note": ""
  },
  {
   "property": "C121",
   "status": "proved",
   "theorems": [
    "Verif.HermiteLegendre.maxwell_coefficients",
    "Verif.HermiteLegendre.restore_moments",
    "Verif.HermiteLegendre.collisions_local",
    "Verif.HermiteLegendre.bgk_exact",
    "Verif.HermiteLegendre.bgk_flow",
    "Verif.HermiteLegendre.bgk_fixed",
    "Verif.HermiteLegendre.bgk_step"
   ],
   "note": ""
  },
  {
   "property": "C122",
   "status": "proved",
   "theorems": [
    "Verif.HermiteLegendre.ou_series",
    "Verif.HermiteLegendre.ou_flow",
    "Verif.HermiteLegendre.ou_maxwell",
    "Verif.HermiteLegendre.ou_coefficients",
    "Verif.HermiteLegendre.ou_rate",
    "Verif.HermiteLegendre.drift_weak",
    "Verif.HermiteLegendre.drift_midpoint",
    "Verif.HermiteLegendre.drift_density",
    "Verif.HermiteLegendre.diffusion_weak",
    "Verif.HermiteLegendre.diffusion_symm",
    "Verif.HermiteLegendre.diffusion_eigenvalues",
    "Verif.HermiteLegendre.diffuse_flow",
    "Verif.HermiteLegendre.diffuse_rate",
    "Verif.HermiteLegendre.diffuse_contracts",
    "Verif.HermiteLegendre.diffuse_density",
    "Verif.HermiteLegendre.dougherty_fixed",
    "Verif.HermiteLegendre.dougherty_parts",
    "Verif.HermiteLegendre.collide_moments"
   ],
   "note": ""
  },
  {
   "property": "C123",
   "status": "proved",
   "theorems": [
    "Verif.HermiteLegendre.explicit_conserves",
    "Verif.HermiteLegendre.conserving_options",
    "Verif.HermiteLegendre.rhs_means",
    "Verif.HermiteLegendre.lawson_means",
    "Verif.HermiteLegendre.implicit_means",
    "Verif.HermiteLegendre.no_penalty_solvable",
    "Verif.HermiteLegendre.explicit_exists"
   ],
   "note": "For imex the linear system of the Legendre force is assumed solvable where it is used (proved without penalty)."
  },
  {
   "property": "C124",
   "status": "proved",
   "theorems": [
    "Verif.HermiteLegendre.equilibrium",
    "Verif.HermiteLegendre.uniform_dist"
   ],
   "note": ""
  },
  {
   "property": "C125",
   "status": "partial",
   "theorems": [
    "Verif.HermiteLegendre.accepted",
    "Verif.HermiteLegendre.bgk_guard_partial"
   ],
   "note": "False for BGK with fewer than three Legendre modes: accepted, with a wrong moment map (witness)."
  },
  {
   "property": "C126",
   "status": "partial",
   "theorems": [
    "Verif.HermiteLegendre.init_advection",
    "Verif.HermiteLegendre.init_two_stream",
    "Verif.HermiteLegendre.init_two_stream_partial",
    "Verif.HermiteLegendre.init_bump",
    "Verif.HermiteLegendre.beam_inside",
    "Verif.HermiteLegendre.bump_charge",
    "Verif.HermiteLegendre.projection",
    "Verif.HermiteLegendre.projection_exact",
    "Verif.HermiteLegendre.rule_two",
    "Verif.HermiteLegendre.custom_rows",
    "Verif.HermiteLegendre.init_custom",
    "Verif.HermiteLegendre.init_types",
    "Verif.HermiteLegendre.initial_state",
    "Verif.HermiteLegendre.profile_mean"
   ],
   "note": "False: two-stream with fewer than three Hermite modes silently is one Maxwellian, and bump-on-tail is not neutral (bump_charge, beam_inside)."
  },
  {
   "property": "C127",
   "status": "proved",
   "theorems": [
    "Verif.HermiteLegendre.saved_totals",
    "Verif.HermiteLegendre.high_fraction",
    "Verif.HermiteLegendre.boundary",
    "Verif.HermiteLegendre.ex_driver"
   ],
   "note": ""
  },
  {
   "property": "C129",
   "status": "proved",
   "theorems": [
    "Verif.TwoFluid.particles_conserved",
    "Verif.TwoFluid.mean_density"
   ],
   "note": ""
  },
  {
   "property": "C130",
   "status": "proved",
   "theorems": [
    "Verif.TwoFluid.frozen",
    "Verif.TwoFluid.rest",
    "Verif.TwoFluid.rest_from_start"
   ],
   "note": ""
  },
  {
   "property": "C131",
   "status": "proved",
   "theorems": [
    "Verif.TwoFluid.field_gauss",
    "Verif.TwoFluid.accelerations",
    "Verif.TwoFluid.mode_gradient"
   ],
   "note": "The mean charge is discarded, as in every periodic solver here."
  },
  {
   "property": "C132",
   "status": "proved",
   "theorems": [
    "Verif.TwoFluid.drivers_sum",
    "Verif.TwoFluid.pulse_wave"
   ],
   "note": ""
  },
  {
   "property": "C133",
   "status": "proved",
   "theorems": [
    "Verif.TwoFluid.linear_response",
    "Verif.TwoFluid.oscillator",
    "Verif.TwoFluid.waves",
    "Verif.TwoFluid.kinetic_waves",
    "Verif.TwoFluid.frequency_shift",
    "Verif.TwoFluid.waves_exist",
    "Verif.TwoFluid.table_meaning",
    "Verif.TwoFluid.wi_nonpos"
   ],
   "note": "linear_response proves that the linear equations are the derivative of the code's right-hand side. The decay rate is the tabulated one; the frequency is sqrt(wr^2-wi^2), not wr (frequency_shift)."
  },
  {
   "property": "C134",
   "status": "partial",
   "theorems": [
    "Verif.TwoFluid.fluid_waves_partial",
    "Verif.TwoFluid.pressure_rate",
    "Verif.TwoFluid.mass_matters"
   ],
   "note": "False for masses other than 1: the pressure equation is divided by the mass once too often (mass_matters). Proved for mass 1."
  },
  {
   "property": "C135",
   "status": "proved",
   "theorems": [
    "Verif.TwoFluid.damping_factor",
    "Verif.TwoFluid.damping_dissipates",
    "Verif.TwoFluid.trapping_source"
   ],
   "note": "damping_dissipates is for the models with a constant factor (zk, none); with the delta model the local factor is bounded by damping_factor only. zk is the constant 1/2, a placeholder."
  },
  {
   "property": "C136",
   "status": "proved",
   "theorems": [
    "Verif.TwoFluid.vf_move",
    "Verif.TwoFluid.symmetry",
    "Verif.TwoFluid.translation"
   ],
   "note": ""
  },
  {
   "property": "C137",
   "status": "proved",
   "theorems": [
    "Verif.TwoFluid.even_cells"
   ],
   "note": ""
  },
  {
   "property": "C138",
   "status": "proved",
   "theorems": [
    "Verif.Electrostatic.epsilon_vlasov",
    "Verif.Electrostatic.no_growth",
    "Verif.Electrostatic.strictly_damped",
    "Verif.Electrostatic.roots_damped",
    "Verif.Electrostatic.guess_bohm_gross",
    "Verif.Electrostatic.epsilon_symm",
    "Verif.Electrostatic.epsilon_scaling",
    "Verif.Electrostatic.dispersion_integral",
    "Verif.Electrostatic.prime_integral",
    "Verif.Electrostatic.faddeeva_exists",
    "Verif.Electrostatic.faddeeva_symm"
   ],
   "note": "scipy's wofz is taken to be the Faddeeva function, which is constructed and shown unique; that newton converges is a hypothesis of roots_damped."
  },
  {
   "property": "C139",
   "status": "proved",
   "theorems": [
    "Verif.Vlasov2V.run_one_d_limit",
    "Verif.Vlasov2V.step_one_d_limit",
    "Verif.Vlasov2V.vlasov2_marginal",
    "Verif.Vlasov2V.vpar_marginal",
    "Verif.Vlasov2V.step_exists"
   ],
   "note": ""
  },
  {
   "property": "C140",
   "status": "proved",
   "theorems": [
    "Verif.Vlasov2V.run_slices",
    "Verif.Vlasov2V.run_perp_moments",
    "Verif.Vlasov2V.step_slices"
   ],
   "note": ""
  },
  {
   "property": "C141",
   "status": "proved",
   "theorems": [
    "Verif.Vlasov2V.vperp_centre",
    "Verif.Vlasov2V.vperp_pos",
    "Verif.Vlasov2V.wperp_rings",
    "Verif.Vlasov2V.mPerp_spec",
    "Verif.Vlasov2V.initial_marginal",
    "Verif.Vlasov2V.initial_nonneg"
   ],
   "note": ""
  },
  {
   "property": "C142",
   "status": "proved",
   "theorems": [
    "Verif.Vlasov2V.run_diagnostics",
    "Verif.Vlasov2V.interval_diagnostics",
    "Verif.Vlasov2V.collisionless_diagnostics",
    "Verif.Vlasov2V.reference_species"
   ],
   "note": ""
  },
  {
   "property": "C143",
   "status": "proved",
   "theorems": [
    "Verif.Vlasov2V.Cyl.apply_conserves",
    "Verif.Vlasov2V.Cyl.restored_density",
    "Verif.Vlasov2V.Cyl.restored_moments",
    "Verif.Vlasov2V.Cyl.det_pos",
    "Verif.Vlasov2V.Cyl.advance_density",
    "Verif.Vlasov2V.collide_cyl_moments",
    "Verif.Vlasov2V.run_number"
   ],
   "note": ""
  },
  {
   "property": "C144",
   "status": "proved",
   "theorems": [
    "Verif.Vlasov2V.psi_pos",
    "Verif.Vlasov2V.dhat_pos",
    "Verif.Vlasov2V.psi_relations",
    "Verif.Vlasov2V.Cyl.tensor_form",
    "Verif.Vlasov2V.Cyl.tensor_psd"
   ],
   "note": ""
  },
  {
   "property": "C145",
   "status": "proved",
   "theorems": [
    "Verif.Vlasov2V.Cyl.sweeps_positive",
    "Verif.Vlasov2V.Cyl.sweeps_unique",
    "Verif.Vlasov2V.Cyl.advance_exists",
    "Verif.Vlasov2V.Cyl.sweeps_dissipate",
    "Verif.Vlasov2V.Cyl.maxwellian_fixed",
    "Verif.Vlasov2V.Cyl.sampled_not_fixed",
    "Verif.Vlasov2V.Cyl.par_step",
    "Verif.Vlasov2V.Cyl.explicit_cross"
   ],
   "note": "sampled_not_fixed: the grid samples of a Maxwellian whose measured moments differ are moved. The explicit cross terms carry no positivity guarantee."
  },
  {
   "property": "C146",
   "status": "proved",
   "theorems": [
    "Verif.Vlasov2V.build_iff",
    "Verif.Vlasov2V.electron_required"
   ],
   "note": ""
  },
  {
   "property": "C147",
   "status": "partial",
   "theorems": [
    "Verif.Vlasov2V.extras_partial",
    "Verif.Vlasov2V.stochastic_ignored",
    "Verif.Vlasov2V.filter_ignored"
   ],
   "note": "False: the ex_stochastic driver and the Hou-Li filter of the shared deck are silently ignored (witnesses)."
  },
  {
   "property": "C148",
   "status": "proved",
   "theorems": [
    "Verif.Spectrax.lorentz_galerkin",
    "Verif.Spectrax.advect_galerkin",
    "Verif.Spectrax.represents_of3",
    "Verif.Spectrax.force_moments",
    "Verif.Spectrax.stream_moments3",
    "Verif.Spectrax.force_fluid",
    "Verif.Spectrax.rhs_galerkin"
   ],
   "note": ""
  },
  {
   "property": "C149",
   "status": "partial",
   "theorems": [
    "Verif.Spectrax.exp_number",
    "Verif.Spectrax.rk_number",
    "Verif.Spectrax.order_zero_filter"
   ],
   "note": "Proved for every run when the order of the Hou-Li filter is positive; false for order 0 (order_zero_filter), which is the default of the exponential integrator's copy of the option."
  },
  {
   "property": "C150",
   "status": "partial",
   "theorems": [
    "Verif.Spectrax.charge_spec",
    "Verif.Spectrax.rk_gauss",
    "Verif.Spectrax.initial_gauss",
    "Verif.Spectrax.lawson_gauss_violated_partial"
   ],
   "note": "Proved for every Runge-Kutta method of the explicit path; false for the exponential path (witness): the current enters at the stages of the step, the density is streamed exactly."
  },
  {
   "property": "C151",
   "status": "proved",
   "theorems": [
    "Verif.Spectrax.divB_invariant",
    "Verif.Spectrax.maxwell_div"
   ],
   "note": ""
  },
  {
   "property": "C152",
   "status": "proved",
   "theorems": [
    "Verif.Spectrax.maxwell_flow",
    "Verif.Spectrax.maxwell_zero",
    "Verif.Spectrax.maxwell_add",
    "Verif.Spectrax.maxwell_div",
    "Verif.Spectrax.maxwell_longitudinal",
    "Verif.Spectrax.maxwell_energy"
   ],
   "note": ""
  },
  {
   "property": "C153",
   "status": "partial",
   "theorems": [
    "Verif.Spectrax.exp_flow",
    "Verif.Spectrax.exp_zero",
    "Verif.Spectrax.exp_exp",
    "Verif.Spectrax.exp_lin",
    "Verif.Spectrax.freeStream_flow",
    "Verif.Spectrax.freeStream_add",
    "Verif.Spectrax.freeStream_norm",
    "Verif.Spectrax.advect_eq",
    "Verif.Spectrax.ok_exists",
    "Verif.Spectrax.collisional_exp_not_flow_partial",
    "Verif.Spectrax.filtered_exp_not_flow_partial"
   ],
   "note": "Proved without collisions and inner filter; with either, the product of the exponentials is not a flow (witnesses)."
  },
  {
   "property": "C154",
   "status": "proved",
   "theorems": [
    "Verif.Spectrax.lawson_classical",
    "Verif.Spectrax.lawson_linear",
    "Verif.Spectrax.lawson_error_quadrature"
   ],
   "note": "lawson_linear assumes the exponential is a flow, see C153."
  },
  {
   "property": "C155",
   "status": "partial",
   "theorems": [
    "Verif.Spectrax.real_runs",
    "Verif.Spectrax.mem_realStates",
    "Verif.Spectrax.herm_iff",
    "Verif.Spectrax.herm_drive",
    "Verif.Spectrax.nyquist_not_real_partial"
   ],
   "note": "Proved for odd grids; false for even grids: the unpaired Nyquist wave number makes a real distribution complex (witness)."
  },
  {
   "property": "C156",
   "status": "proved",
   "theorems": [
    "Verif.Spectrax.energy_budget",
    "Verif.Spectrax.kinetic_spec",
    "Verif.Spectrax.current_spec",
    "Verif.Spectrax.kinetic_work",
    "Verif.Spectrax.energy_mean",
    "Verif.Spectrax.parseval3"
   ],
   "note": ""
  },
  {
   "property": "C157",
   "status": "partial",
   "theorems": [
    "Verif.Spectrax.initial_density_wave",
    "Verif.Spectrax.initial_gauss",
    "Verif.Spectrax.initial_uniform_partial",
    "Verif.Spectrax.initial_anisotropic_partial",
    "Verif.Spectrax.initial_alias_partial",
    "Verif.Spectrax.initial_negative_partial",
    "Verif.Spectrax.initial_component_partial",
    "Verif.Spectrax.initial_rest"
   ],
   "note": "Proved for an axis mode between 1 and (N-1)/2 with isotropic thermal speed; the other accepted mode numbers violate it (witnesses)."
  },
  {
   "property": "C158",
   "status": "proved",
   "theorems": [
    "Verif.Spectrax.static_ions"
   ],
   "note": ""
  },
  {
   "property": "C159",
   "status": "proved",
   "theorems": [
    "Verif.Spectrax.collisions_dissipate"
   ],
   "note": ""
  },
  {
   "property": "C160",
   "status": "partial",
   "theorems": [
    "Verif.Spectrax.saved_end",
    "Verif.Spectrax.saved_not_state_partial"
   ],
   "note": "False with a sponge or the outer filter: the saved state precedes the damping (witness)."
  },
  {
   "property": "C161",
   "status": "partial",
   "theorems": [
    "Verif.Spectrax.moments_spec",
    "Verif.Spectrax.temperature_spec",
    "Verif.Spectrax.energy_mean",
    "Verif.Spectrax.temperature_offset_partial",
    "Verif.Spectrax.total_current_partial",
    "Verif.Spectrax.saved_axis_partial"
   ],
   "note": "Densities, flows and pressures are proved to be the moments; false: temperatures are taken about the basis drift, the total current ignores charges, the stored axis is not the grid (witnesses)."
  },
  {
   "property": "C162",
   "status": "partial",
   "theorems": [
    "Verif.Spectrax.time_grid",
    "Verif.Spectrax.max_steps",
    "Verif.Spectrax.adaptive_default_partial",
    "Verif.Spectrax.filter_defaults_partial"
   ],
   "note": "Times proved; false: `adaptive_time_step` and the filter options have different defaults in different parts (witnesses)."
  },
  {
   "property": "C163",
   "status": "partial",
   "theorems": [
    "Verif.Spectrax.drive_shape",
    "Verif.Spectrax.pulse_bound",
    "Verif.Spectrax.herm_drive",
    "Verif.Spectrax.pulse_front",
    "Verif.Spectrax.pulse_crest"
   ],
   "note": "Proved for Ny = Nz = 1; with more points the driven field is set on every ky, kz, i.e. concentrated on one line."
  },
  {
   "property": "C164",
   "status": "proved",
   "theorems": [
    "Verif.Lpse.energy_modes",
    "Verif.Lpse.step_energy",
    "Verif.Lpse.run_energy",
    "Verif.Lpse.deck_physical"
   ],
   "note": ""
  },
  {
   "property": "C165",
   "status": "proved",
   "theorems": [
    "Verif.Lpse.landau_spec",
    "Verif.Lpse.bohm_gross",
    "Verif.Lpse.exact_wave"
   ],
   "note": ""
  },
  {
   "property": "C166",
   "status": "proved",
   "theorems": [
    "Verif.Lpse.round_trip",
    "Verif.Lpse.filtered_zero"
   ],
   "note": ""
  },
  {
   "property": "C167",
   "status": "proved",
   "theorems": [
    "Verif.Lpse.coupling",
    "Verif.Lpse.manley_rowe",
    "Verif.Lpse.growth_rate",
    "Verif.Lpse.rate_bound",
    "Verif.Lpse.source_axis",
    "Verif.Lpse.step_source"
   ],
   "note": ""
  },
  {
   "property": "C168",
   "status": "partial",
   "theorems": [
    "Verif.Lpse.dealias_refused",
    "Verif.Lpse.band_room",
    "Verif.Lpse.alias_free",
    "Verif.Lpse.isotropic_aliases_partial",
    "Verif.Lpse.speckle_support_partial",
    "Verif.Lpse.transverse_room"
   ],
   "note": "Proved along x for a pump without speckle; the default isotropic filter aliases and the transverse support of a speckle is too small (witnesses)."
  },
  {
   "property": "C169",
   "status": "partial",
   "theorems": [
    "Verif.Lpse.pump_waves",
    "Verif.Lpse.snapped",
    "Verif.Lpse.dispersion",
    "Verif.Lpse.mean_intensity",
    "Verif.Lpse.envelope_range",
    "Verif.Lpse.pump_history",
    "Verif.Lpse.interference_partial",
    "Verif.Lpse.amp_phase"
   ],
   "note": "Mean intensity proved for colours on different grid modes; colours that snap to the same mode interfere (witness)."
  },
  {
   "property": "C170",
   "status": "partial",
   "theorems": [
    "Verif.Lpse.intensities_one",
    "Verif.Lpse.fwhm",
    "Verif.Lpse.colours_symmetric",
    "Verif.Lpse.phase_range",
    "Verif.Lpse.activation_range",
    "Verif.Lpse.load_dispatch",
    "Verif.Lpse.one_colour_partial",
    "Verif.Lpse.shapes_partial",
    "Verif.Lpse.load_misread_partial"
   ],
   "note": "Spectra proved; false: the trainable shape cannot pump, only it can be saved, one colour is off-centre, the reader is chosen by any part of the path (witnesses)."
  },
  {
   "property": "C171",
   "status": "partial",
   "theorems": [
    "Verif.Lpse.ignored_partial",
    "Verif.Lpse.landau_always_partial",
    "Verif.Lpse.drivers_required_partial"
   ],
   "note": "Three switches take effect (by the model of the step); landau, zero_mask, linear, srs and hyperviscosity do not, a run without E0 or with E2 fails."
  },
  {
   "property": "C172",
   "status": "partial",
   "theorems": [
    "Verif.Lpse.linear_scale",
    "Verif.Lpse.uniform_critical_partial",
    "Verif.Lpse.row_profile_partial",
    "Verif.Lpse.row_profiles_partial"
   ],
   "note": "Linear profile proved; uniform is critical density, tanh and sine vary along the wrong axis or fail, exponential fails."
  },
  {
   "property": "C173",
   "status": "proved",
   "theorems": [
    "Verif.Lpse.isotropic_range",
    "Verif.Lpse.filter_range",
    "Verif.Lpse.absorbing_range",
    "Verif.Lpse.deck_physical",
    "Verif.Lpse.isotropic_antitone",
    "Verif.Lpse.boundary_pointwise"
   ],
   "note": ""
  },
  {
   "property": "C174",
   "status": "partial",
   "theorems": [
    "Verif.Lpse.energy_modes",
    "Verif.Lpse.maxPhi_spec",
    "Verif.Lpse.saved_axis_same",
    "Verif.Lpse.saved_energy",
    "Verif.Lpse.saved_scale_partial",
    "Verif.Lpse.saved_axis_partial",
    "Verif.Lpse.spectrum_interpolated_partial",
    "Verif.Lpse.fields_written_partial"
   ],
   "note": "Series proved; stored fields are scaled by 4/(nx ny), stored axes and spectra are wrong for another dx, 64-bit runs cannot be written (witnesses)."
  },
  {
   "property": "C175",
   "status": "proved",
   "theorems": [
    "Verif.Speckle.lens_eq",
    "Verif.Speckle.pattern_bound",
    "Verif.Speckle.power",
    "Verif.Speckle.unimodular",
    "Verif.Speckle.mean_intensity",
    "Verif.Speckle.periodic",
    "Verif.Speckle.static_pattern",
    "Verif.Speckle.ssd_bandwidth",
    "Verif.Speckle.colour_cycles",
    "Verif.Speckle.fm_period",
    "Verif.Speckle.fm_sweep",
    "Verif.Speckle.rpm_sweep"
   ],
   "note": ""
  },
  {
   "property": "C176",
   "status": "partial",
   "theorems": [
    "Verif.Speckle.isi_index",
    "Verif.Speckle.ssd_lengths",
    "Verif.Speckle.rpm_inside",
    "Verif.Speckle.rpm_interpolates",
    "Verif.Speckle.rms",
    "Verif.Speckle.no_modulation",
    "Verif.Speckle.construct_ok",
    "Verif.Speckle.checks_too_late_partial",
    "Verif.Speckle.sampling",
    "Verif.Speckle.isi_nearest",
    "Verif.Speckle.series_spectrum",
    "Verif.Speckle.scale_pos",
    "Verif.Speckle.stored_phase_rms",
    "Verif.Speckle.series_spectrum_odd_partial",
    "Verif.Speckle.half_power_partial",
    "Verif.Speckle.stored_phase_partial"
   ],
   "note": "False: with an odd number of samples the spectrum is displaced by one bin, the width parameter is the half width and not the documented full width, the stored SSD phase is smaller than the requested rms, the documented messages of two checks are never shown; the rest is proved."
  },
  {
   "property": "C177",
   "status": "partial",
   "theorems": [
    "Verif.Speckle.mean_amplitude",
    "Verif.Speckle.mean_excess_partial",
    "Verif.Speckle.excess_witness"
   ],
   "note": "False: the mean amplitude, not the mean intensity, is normalised; the mean intensity is always at least the configured one, equal only without speckle."
  },
  {
   "property": "C178",
   "status": "proved",
   "theorems": [
    "Verif.Lpse.superposition",
    "Verif.Lpse.superposition_run",
    "Verif.Lpse.translation",
    "Verif.Lpse.translation_run"
   ],
   "note": ""
  },
  {
   "property": "C179",
   "status": "proved",
   "theorems": [
    "Verif.Lpse.silent",
    "Verif.Lpse.raman_silent",
    "Verif.Lpse.noise_amplitude"
   ],
   "note": "A consequence: the density.noise section of the deck has no effect."
  },
  {
   "property": "C180",
   "status": "partial",
   "theorems": [
    "Verif.Lpse.units_meaning",
    "Verif.Lpse.log_mismatch_partial",
    "Verif.Lpse.collisions_accepted_partial",
    "Verif.Lpse.collisions_off"
   ],
   "note": "Units proved; two different Coulomb logarithms, and integer or borderline collisions values fail (witnesses)."
  },
  {
   "property": "C181",
   "status": "proved",
   "theorems": [
    "Verif.Spectrax.noise_spec",
    "Verif.Spectrax.sponge_profile",
    "Verif.Spectrax.sponge_quadratic",
    "Verif.Spectrax.sponge_pointwise",
    "Verif.Spectrax.sponge_energy"
   ],
   "note": ""
  },
  {
   "property": "C182",
   "status": "proved",
   "theorems": [
    "Verif.Beta.temperature_average",
    "Verif.Beta.shape_colder",
    "Verif.Beta.beta_unique_iff",
    "Verif.Beta.beta_of_distribution",
    "Verif.Beta.beta_sign",
    "Verif.Beta.beta_of_shape",
    "Verif.Beta.temperature_flow",
    "Verif.Beta.temperature_variance"
   ],
   "note": ""
  },
  {
   "property": "C183",
   "status": "partial",
   "theorems": [
    "Verif.Beta.residual_slope",
    "Verif.Beta.newton_rests_iff",
    "Verif.Beta.find_of_exact_guess",
    "Verif.Beta.find_default",
    "Verif.Beta.steps_spec",
    "Verif.Beta.find_between_partial",
    "Verif.Beta.newton_unconverged",
    "Verif.Beta.find_galilean"
   ],
   "note": "False: the default three iterations can end far from the root without an error (witness). Proved: the iteration is defined everywhere, rests exactly at the root, and from a guess on the convex side it stays between guess and root."
  },
  {
   "property": "C184",
   "status": "proved",
   "theorems": [
    "Verif.Beta.ratio_gamma",
    "Verif.Beta.diffusion_is_temperature",
    "Verif.Beta.spherical_is_temperature",
    "Verif.Beta.ratio_two",
    "Verif.Beta.guess_is_continuum"
   ],
   "note": ""
  },
  {
   "property": "C185",
   "status": "partial",
   "theorems": [
    "Verif.Beta.closure_two",
    "Verif.Beta.diffusion_two",
    "Verif.Beta.drift_two",
    "Verif.Beta.energy_rate",
    "Verif.Beta.energy_step",
    "Verif.Beta.energy_conserved_iff",
    "Verif.Beta.closure_unique_partial",
    "Verif.Beta.closure_positive",
    "Verif.Beta.compute_default",
    "Verif.Beta.compute_rests",
    "Verif.Beta.closure_galilean"
   ],
   "note": "Energy identity proved for every grid and distribution; uniqueness for distributions without mean flow and away from the truncated series of the weight."
  },
  {
   "property": "C186",
   "status": "proved",
   "theorems": [
    "Verif.VfpInit.density_continuum",
    "Verif.VfpInit.energy_continuum",
    "Verif.VfpInit.maxwellian",
    "Verif.VfpInit.dist_pos",
    "Verif.VfpInit.dist_anti",
    "Verif.VfpInit.saved_converges",
    "Verif.VfpInit.saved_accurate",
    "Verif.VfpInit.truncated_lt",
    "Verif.VfpInit.mixture_moments",
    "Verif.VfpInit.initial_is_mixture"
   ],
   "note": ""
  },
  {
   "property": "C187",
   "status": "proved",
   "theorems": [
    "Verif.VfpInit.file_read",
    "Verif.VfpInit.single_row_rejected",
    "Verif.VfpInit.order_irrelevant",
    "Verif.VfpInit.file_profile",
    "Verif.VfpInit.file_linear"
   ],
   "note": "numpy.genfromtxt is modelled (comments, blank lines, rectangularity, squeezing); float() on a token is a parameter."
  },
  {
   "property": "C188",
   "status": "proved",
   "theorems": [
    "Verif.VfpInit.profile_positive",
    "Verif.VfpInit.tanh_profile",
    "Verif.VfpInit.wave_profile",
    "Verif.VfpInit.accepted_iff",
    "Verif.VfpInit.initial_positive"
   ],
   "note": ""
  },
  {
   "property": "C189",
   "status": "partial",
   "theorems": [
    "Verif.VfpInit.drifting_deriv",
    "Verif.VfpInit.saved_flow",
    "Verif.VfpInit.scalars_are_means",
    "Verif.VfpInit.moments_consistent",
    "Verif.VfpInit.mean_velocity",
    "Verif.VfpInit.raw_column",
    "Verif.VfpInit.save_accepted_iff",
    "Verif.VfpInit.label_n_iff"
   ],
   "note": "False for the density column labelled cm-3, whose factor 9.09e21 ignores the laser wavelength (label_n_iff); the quantity saved as v is the flux n u (saved_flow); the rest is proved."
  },
  {
   "property": "C190",
   "status": "partial",
   "theorems": [
    "Verif.VlasovInit.vax_eq",
    "Verif.VlasovInit.grid_ends",
    "Verif.VlasovInit.component_density",
    "Verif.VlasovInit.component_pos",
    "Verif.VlasovInit.component_drift",
    "Verif.VlasovInit.species_density",
    "Verif.VlasovInit.setup_distribution",
    "Verif.VlasovInit.fourth_over_second",
    "Verif.VlasovInit.variance",
    "Verif.VlasovInit.excess_two",
    "Verif.VlasovInit.initial_accurate",
    "Verif.VlasovInit.excess_one_partial",
    "Verif.VlasovInit.single_cell_density_partial"
   ],
   "note": "Density, positivity and drift proved. False: T0 fixes the ratio of the fourth to the second moment, so the variance is T0/mass only for m = 2 (half of it for m = 1), and with one cell the density profile is ignored (witnesses)."
  },
  {
   "property": "C191",
   "status": "partial",
   "theorems": [
    "Verif.VlasovInit.explicit_species",
    "Verif.VlasovInit.legacy_species",
    "Verif.VlasovInit.no_species",
    "Verif.VlasovInit.default_vmin",
    "Verif.VlasovInit.setup_ok",
    "Verif.VlasovInit.kinetic_cfg",
    "Verif.VlasovInit.missing_component",
    "Verif.VlasovInit.setup_components",
    "Verif.VlasovInit.setup_density",
    "Verif.VlasovInit.charge_many",
    "Verif.VlasovInit.charge_one",
    "Verif.VlasovInit.electrons_neutral",
    "Verif.VlasovInit.ions_not_neutral_partial",
    "Verif.VlasovInit.quasineutrality_ignored_partial",
    "Verif.VlasovInit.duplicate_name_partial"
   ],
   "note": "False: a single species is neutral only with charge -1, the quasineutrality option has no effect, of two species with one name only the last is simulated and without background (witnesses)."
  },
  {
   "property": "C192",
   "status": "partial",
   "theorems": [
    "Verif.VlasovInit.profiles",
    "Verif.VlasovInit.unknown_basis",
    "Verif.VlasovInit.noise_bounds",
    "Verif.VlasovInit.noise_positive",
    "Verif.VlasovInit.state_entries",
    "Verif.VlasovInit.state_diagnostics",
    "Verif.VlasovInit.diag_size",
    "Verif.VlasovInit.space_profile_ignored_partial",
    "Verif.VlasovInit.reserved_name_partial"
   ],
   "note": "False: the uniform basis ignores its space profile, and a species named like a field (e) is overwritten (witnesses)."
  },
  {
   "property": "C193",
   "status": "proved",
   "theorems": [
    "Verif.VlasovSave.scalars_of_fields",
    "Verif.VlasovSave.current",
    "Verif.VlasovSave.second_moment",
    "Verif.VlasovSave.third_moment",
    "Verif.VlasovSave.mean_flux",
    "Verif.VlasovSave.pressure",
    "Verif.VlasovSave.galilean",
    "Verif.VlasovSave.kinetic_energy",
    "Verif.VlasovSave.total_energy",
    "Verif.VlasovSave.entropy",
    "Verif.VlasovSave.mean_pond",
    "Verif.VlasovSave.initial_density",
    "Verif.VlasovSave.initial_total"
   ],
   "note": ""
  },
  {
   "property": "C194",
   "status": "partial",
   "theorems": [
    "Verif.VlasovSave.locate_spec",
    "Verif.VlasovSave.sample_defined",
    "Verif.VlasovSave.sample_value",
    "Verif.VlasovSave.sample_range",
    "Verif.VlasovSave.sample_bilinear",
    "Verif.VlasovSave.sample_node",
    "Verif.VlasovSave.save_axes",
    "Verif.VlasovSave.positions_inside",
    "Verif.VlasovSave.sample_copy",
    "Verif.VlasovSave.samples_partial",
    "Verif.VlasovSave.velocity_ends_missing_partial"
   ],
   "note": "False: samples in the outer half cell of the velocity range have no value (NaN), among them the first and last velocity of a save over the whole range, as in the documentation; the rest is proved."
  },
  {
   "property": "C195",
   "status": "partial",
   "theorems": [
    "Verif.VlasovSave.dims_spec",
    "Verif.VlasovSave.content_spec",
    "Verif.VlasovSave.section_accepted",
    "Verif.VlasovSave.unknown_save",
    "Verif.VlasovSave.diagnostic_needs_electron",
    "Verif.VlasovSave.flat_species",
    "Verif.VlasovSave.section_streams",
    "Verif.VlasovSave.section_get",
    "Verif.VlasovSave.velocity_wavenumbers",
    "Verif.VlasovSave.writer_agrees",
    "Verif.VlasovSave.stream_times",
    "Verif.VlasovSave.times_within",
    "Verif.VlasovSave.diagnostics_required",
    "Verif.VlasovSave.fields_order_partial",
    "Verif.VlasovSave.dotted_species_collide_partial",
    "Verif.VlasovSave.misrouted_partial"
   ],
   "note": "False: two saves of the fields are accepted only with `fields` last, streams collide if a species name has a dot, species named field... or default... are stored as something else, a deck without a diagnostics section fails (witnesses)."
  },
  {
   "property": "C196",
   "status": "partial",
   "theorems": [
    "Verif.VlasovSave.modes_available",
    "Verif.VlasovSave.nk_mode",
    "Verif.VlasovSave.mean_charge",
    "Verif.VlasovSave.wave_spectrum",
    "Verif.VlasovSave.power_bound",
    "Verif.VlasovSave.window_contains_end",
    "Verif.VlasovSave.window_spec",
    "Verif.VlasovSave.screening_consistent",
    "Verif.VlasovSave.screening_explicit",
    "Verif.VlasovSave.screening_differs_partial",
    "Verif.VlasovSave.window_empty_partial"
   ],
   "note": "False: a narrow window can be empty, and the default screening length is the solver's only for mean charge 1 (witnesses)."
  },
  {
   "property": "C197",
   "status": "proved",
   "theorems": [
    "Verif.OsirisPlot.drawn_size",
    "Verif.OsirisPlot.factor_small",
    "Verif.OsirisPlot.untouched",
    "Verif.OsirisPlot.downsample_eq",
    "Verif.OsirisPlot.mean_kept",
    "Verif.OsirisPlot.few_dropped",
    "Verif.OsirisPlot.centres",
    "Verif.OsirisPlot.uniform_kept",
    "Verif.OsirisPlot.linear",
    "Verif.OsirisPlot.within_block",
    "Verif.OsirisPlot.pixels_covered"
   ],
   "note": ""
  },
  {
   "property": "C198",
   "status": "partial",
   "theorems": [
    "Verif.OsirisPlot.panels_cover",
    "Verif.OsirisPlot.panel_count",
    "Verif.OsirisPlot.reselect_all",
    "Verif.OsirisPlot.no_panels",
    "Verif.OsirisPlot.lineouts",
    "Verif.OsirisPlot.lineouts_miss_last_partial"
   ],
   "note": "The evolution panels are proved; line-outs can miss the last dump (witness)."
  },
  {
   "property": "C199",
   "status": "partial",
   "theorems": [
    "Verif.OsirisPlot.crop_exact",
    "Verif.OsirisPlot.crop_inside",
    "Verif.OsirisPlot.bound_entry",
    "Verif.OsirisPlot.crop_empty_partial"
   ],
   "note": "False when no cell centre lies in the box: a cell outside is kept, or none (witness)."
  },
  {
   "property": "C200",
   "status": "partial",
   "theorems": [
    "Verif.OsirisPlot.power_neg",
    "Verif.OsirisPlot.power_periodic",
    "Verif.OsirisPlot.cells_show",
    "Verif.OsirisPlot.odd_exact",
    "Verif.OsirisPlot.axes",
    "Verif.OsirisPlot.wave_amplitude",
    "Verif.OsirisPlot.wave_place",
    "Verif.OsirisPlot.mirror_within_cell",
    "Verif.OsirisPlot.zoom_window",
    "Verif.OsirisPlot.no_window",
    "Verif.OsirisPlot.even_displaced_partial"
   ],
   "note": "Proved for odd numbers of cells and for non-negative frequencies. False: with an even number of cells the negative-frequency half is displaced by one wave number (witness for every even grid)."
  },
  {
   "property": "C201",
   "status": "partial",
   "theorems": [
    "Verif.OsirisPlot.density_abs",
    "Verif.OsirisPlot.density_unit_charge",
    "Verif.OsirisPlot.density_charge",
    "Verif.OsirisPlot.density_multiply_charged_partial",
    "Verif.OsirisPlot.temperature_variance",
    "Verif.OsirisPlot.temperature_nonneg",
    "Verif.OsirisPlot.temperature_shift",
    "Verif.OsirisPlot.temperature_least",
    "Verif.OsirisSeries.temperature_stretch",
    "Verif.OsirisSeries.temperature_moving_partial",
    "Verif.OsirisSeries.temperature_quarter"
   ],
   "note": "False for the density of multiply charged ions, which is drawn Z times too large (witness), and for the temperature of phase spaces with an autoscaled momentum axis, which uses the axis of the first dump (witness)."
  },
  {
   "property": "C202",
   "status": "proved",
   "theorems": [
    "Verif.OsirisPlot.split_parts",
    "Verif.OsirisPlot.pure_wave",
    "Verif.OsirisPlot.parts_travel",
    "Verif.OsirisPlot.polarisations",
    "Verif.OsirisPlot.slabs",
    "Verif.OsirisPlot.slab_requested",
    "Verif.OsirisPlot.slab_local"
   ],
   "note": ""
  },
  {
   "property": "C203",
   "status": "partial",
   "theorems": [
    "Verif.OsirisPlot.iterations",
    "Verif.OsirisPlot.total_split",
    "Verif.OsirisPlot.total_integral",
    "Verif.OsirisPlot.missing_zero",
    "Verif.OsirisPlot.energy_nonneg",
    "Verif.OsirisPlot.cadence_drop_partial"
   ],
   "note": "False when components have different dump cadences: the total drops where only some were dumped (witness)."
  },
  {
   "property": "C204",
   "status": "partial",
   "theorems": [
    "Verif.Osiris.first_section",
    "Verif.Osiris.array_found",
    "Verif.Osiris.cell_sizes",
    "Verif.Osiris.cfl_limit",
    "Verif.Osiris.step_count",
    "Verif.Osiris.derived_accepted",
    "Verif.Osiris.derived_empty",
    "Verif.Osiris.zero_step",
    "Verif.Osiris.steps_ignore_start_partial",
    "Verif.Osiris.dimensions",
    "Verif.Osiris.elementwise_partial"
   ],
   "note": "False: the number of steps ignores the start time, and a deck that gives nx_p one entry at a time is read as one-dimensional (witnesses); the rest is proved."
  },
  {
   "property": "C205",
   "status": "proved",
   "theorems": [
    "Verif.Osiris.units_eq",
    "Verif.Osiris.reference_scales",
    "Verif.Osiris.reference_recorded",
    "Verif.Osiris.density_first",
    "Verif.Osiris.no_reference",
    "Verif.Osiris.box_and_duration",
    "Verif.Osiris.laser_recorded",
    "Verif.Osiris.laser_constant",
    "Verif.Osiris.laser_section",
    "Verif.Osiris.units_accepted"
   ],
   "note": ""
  },
  {
   "property": "C206",
   "status": "proved",
   "theorems": [
    "Verif.Osiris.speeds",
    "Verif.Osiris.sound_physical",
    "Verif.Osiris.electron_speed",
    "Verif.Osiris.ion_free"
   ],
   "note": ""
  },
  {
   "property": "C207",
   "status": "partial",
   "theorems": [
    "Verif.Osiris.latest_spec",
    "Verif.Osiris.latest_perm",
    "Verif.Osiris.counted",
    "Verif.Osiris.final_sum",
    "Verif.Osiris.metrics_agree",
    "Verif.Osiris.metric_fallback",
    "Verif.Osiris.counted_twice_partial",
    "Verif.Osiris.averaged_energy_partial",
    "Verif.Osiris.strLe_iff",
    "Verif.Osiris.resolve_spec",
    "Verif.Osiris.resolve_counted"
   ],
   "note": "False: a component dumped both in full and averaged is counted twice, and averaged dumps use the cell volume of the full grid (witnesses); the rest is proved."
  },
  {
   "property": "C208",
   "status": "partial",
   "theorems": [
    "Verif.Osiris.regen_default",
    "Verif.Osiris.cli_override",
    "Verif.Osiris.kwargs_spec",
    "Verif.Osiris.regen_no_config",
    "Verif.Osiris.config_list_partial",
    "Verif.Osiris.config_above_partial"
   ],
   "note": "False: a configuration that is readable but no mapping stops the regeneration, and a run without configuration takes that of the directory above (witnesses)."
  },
  {
   "property": "C209",
   "status": "partial",
   "theorems": [
    "Verif.Vfp2d.Recon.potential_curl",
    "Verif.Vfp2d.Recon.potential_current",
    "Verif.Vfp2d.Recon.potential_mean",
    "Verif.Vfp2d.Recon.potential_of",
    "Verif.Vfp2d.Recon.potential_linear",
    "Verif.Vfp2d.Recon.potential_faraday",
    "Verif.Vfp2d.Recon.potential_uniform",
    "Verif.Vfp2d.Recon.potential_nyquist_partial"
   ],
   "note": "False for fields with content on a Nyquist line of an even grid: the potential of a zigzag field is zero (witness)."
  },
  {
   "property": "C210",
   "status": "partial",
   "theorems": [
    "Verif.Vfp2d.Recon.xpoint_cell",
    "Verif.Vfp2d.Recon.upstream_points",
    "Verif.Vfp2d.Recon.fractions_bounded",
    "Verif.Vfp2d.Recon.peak_spec",
    "Verif.Vfp2d.Recon.width_bound",
    "Verif.Vfp2d.Recon.width_exact",
    "Verif.Vfp2d.Recon.gauge_free",
    "Verif.Vfp2d.Recon.hessian_exact",
    "Verif.Vfp2d.Recon.opoint_never_valid",
    "Verif.Vfp2d.Recon.valid_meaning",
    "Verif.Vfp2d.Recon.rate_meaning",
    "Verif.Vfp2d.Recon.rate_exists",
    "Verif.Vfp2d.Recon.flux_faraday",
    "Verif.Vfp2d.Recon.purity_one",
    "Verif.Vfp2d.Recon.purity_zero",
    "Verif.Vfp2d.Recon.accepts_iff",
    "Verif.Vfp2d.Recon.accepts_usual",
    "Verif.Vfp2d.Recon.saddle_valid",
    "Verif.Vfp2d.Recon.balance_gate",
    "Verif.Vfp2d.Recon.projection_bound",
    "Verif.Vfp2d.Recon.projection_exact",
    "Verif.Vfp2d.Recon.quadrupole_offset_partial",
    "Verif.Vfp2d.Recon.no_inflow_partial",
    "Verif.Vfp2d.Recon.one_cell_partial"
   ],
   "note": "False: on a box without the origin the quadrupole is not centred at the X-point, a uniform field has purity one; a run without inflow has valid normalisations and no rate; runs with one cell along a direction raise in post-processing."
  },
  {
   "property": "C211",
   "status": "partial",
   "theorems": [
    "Verif.Vfp2d.Recon.panels_spec",
    "Verif.Vfp2d.Recon.panels_last",
    "Verif.Vfp2d.Recon.colours_spec",
    "Verif.Vfp2d.Recon.inside_spec",
    "Verif.Vfp2d.Recon.metrics_spec",
    "Verif.Vfp2d.Recon.fraction_spec",
    "Verif.Vfp2d.Recon.one_panel_partial"
   ],
   "note": "False for one panel: it shows the initial state, never the last."
  },
  {
   "property": "C212",
   "status": "partial",
   "theorems": [
    "Verif.Vfp2d.Profile2.same_as_1d",
    "Verif.Vfp2d.Profile2.axis_transpose",
    "Verif.Vfp2d.Profile2.separable",
    "Verif.Vfp2d.Profile2.spots_bounds",
    "Verif.Vfp2d.Profile2.spot_round",
    "Verif.Vfp2d.Profile2.spots_pair",
    "Verif.Vfp2d.Profile2.uniform_level",
    "Verif.Vfp2d.Profile2.missing_amplitude",
    "Verif.Vfp2d.Profile2.axis_unchecked_partial",
    "Verif.Vfp2d.Profile2.basis_missing_partial"
   ],
   "note": "False: an unknown axis is taken as x and a profile without basis is uniform, where VFP-1D refuses it."
  },
  {
   "property": "C213",
   "status": "partial",
   "theorems": [
    "Verif.Vfp2d.Profile2.initial_sum",
    "Verif.Vfp2d.Profile2.initial_density",
    "Verif.Vfp2d.Profile2.relativistic_density",
    "Verif.Vfp2d.Profile2.relativistic_ratio",
    "Verif.Vfp2d.Profile2.no_species",
    "Verif.Vfp2d.Profile2.saveTime_spec",
    "Verif.Vfp2d.Profile2.default_saves_steps",
    "Verif.Vfp2d.Profile2.saves_between_steps_partial",
    "Verif.Vfp2d.Profile2.exponent_ignored_partial"
   ],
   "note": "False: the exponent of a super-Gaussian species is ignored in relativistic runs, and with more than a hundred steps, not a multiple of a hundred, default save times fall between steps."
  },
  {
   "property": "C214",
   "status": "partial",
   "theorems": [
    "Verif.SpectraxWaves.frequency_of_phase",
    "Verif.SpectraxWaves.epw_frequency_exact",
    "Verif.SpectraxWaves.frequency_bound",
    "Verif.SpectraxWaves.one_sample_fails",
    "Verif.SpectraxWaves.epw_frequency_alias_partial",
    "Verif.SpectraxWaves.standing_wave_partial"
   ],
   "note": "False for waves saved less than twice per period (aliased) and for standing waves, whose mean reported frequency tends to zero."
  },
  {
   "property": "C215",
   "status": "proved",
   "theorems": [
    "Verif.SpectraxWaves.slope_least_squares",
    "Verif.SpectraxWaves.damping_nan_iff",
    "Verif.SpectraxWaves.damping_needs_fourteen",
    "Verif.SpectraxWaves.damping_exact",
    "Verif.SpectraxWaves.damping_ignores_transient",
    "Verif.SpectraxWaves.damping_scale"
   ],
   "note": "np.polyfit is modelled by the closed form of the least-squares slope, proved optimal."
  },
  {
   "property": "C216",
   "status": "partial",
   "theorems": [
    "Verif.SpectraxWaves.final_energy_between",
    "Verif.SpectraxWaves.final_energy_short",
    "Verif.SpectraxWaves.final_energy_window",
    "Verif.SpectraxWaves.em_window",
    "Verif.SpectraxWaves.em_window_partial",
    "Verif.SpectraxWaves.em_needs_six",
    "Verif.SpectraxWaves.em_frequency_exact",
    "Verif.SpectraxWaves.em_standing",
    "Verif.SpectraxWaves.absorption_range",
    "Verif.SpectraxWaves.absorption_of_tail",
    "Verif.SpectraxWaves.absorption_no_wave",
    "Verif.SpectraxWaves.peak_spec",
    "Verif.SpectraxWaves.mode_curves",
    "Verif.SpectraxWaves.mode_labels",
    "Verif.SpectraxWaves.mode_labels_partial",
    "Verif.SpectraxWaves.facet_mode_partial",
    "Verif.SpectraxWaves.panel_times",
    "Verif.SpectraxWaves.panel_empty",
    "Verif.SpectraxWaves.panel_no_driver"
   ],
   "note": "False: the documented window is the latter 75%, the code uses the last 20%; with fewer than eleven cells mode curves carry wrong labels; the facet plot does not show the uniform transverse mode."
  },
  {
   "property": "C217",
   "status": "partial",
   "theorems": [
    "Verif.Lineouts.panels_spec",
    "Verif.Lineouts.panels_all_spec",
    "Verif.Lineouts.panels_count",
    "Verif.Lineouts.panels_all_count",
    "Verif.Lineouts.panels_few",
    "Verif.Lineouts.panels_last_partial"
   ],
   "note": "False: slice(0, -1, skip) never draws the last saved time and draws nothing for a single one."
  },
  {
   "property": "C218",
   "status": "proved",
   "theorems": [
    "Verif.OsirisSeries.moving_axis_exact",
    "Verif.OsirisSeries.own_axis",
    "Verif.OsirisSeries.saved_axis",
    "Verif.OsirisSeries.streamed_axis",
    "Verif.OsirisSeries.autoscaled_reload",
    "Verif.OsirisSeries.moving_const"
   ],
   "note": "Closeness is np.allclose with default tolerances."
  },
  {
   "property": "C219",
   "status": "proved",
   "theorems": [
    "Verif.OsirisSeries.raw_rows",
    "Verif.OsirisSeries.raw_lengths",
    "Verif.OsirisSeries.raw_keep"
   ],
   "note": "HDF5 reading and xr.concat are modelled by their results."
  },
  {
   "property": "C220",
   "status": "partial",
   "theorems": [
    "Verif.OsirisSeries.drift_spec",
    "Verif.OsirisSeries.interp_aligned",
    "Verif.OsirisSeries.interp_length",
    "Verif.OsirisSeries.interp_bounds",
    "Verif.OsirisSeries.interp_linear_curve",
    "Verif.OsirisSeries.hist_total",
    "Verif.OsirisSeries.hist_field",
    "Verif.OsirisSeries.hist_species",
    "Verif.OsirisSeries.hist_none",
    "Verif.OsirisSeries.words_word",
    "Verif.OsirisSeries.words_space",
    "Verif.OsirisSeries.words_last",
    "Verif.OsirisSeries.row_numbers",
    "Verif.OsirisSeries.row_comment",
    "Verif.OsirisSeries.row_header",
    "Verif.OsirisSeries.table_complete",
    "Verif.OsirisSeries.table_cut",
    "Verif.OsirisSeries.table_refused",
    "Verif.OsirisSeries.cut_reports_counts_partial"
   ],
   "note": "False for a table whose last line is cut: every row loses the missing columns, so that particle counts are reported as energies (witness). Python's float is a parameter."
  },
  {
   "property": "C221",
   "status": "partial",
   "theorems": [
    "Verif.OsirisCanned.canned_returns_iff",
    "Verif.OsirisCanned.canned_sound",
    "Verif.OsirisCanned.canned_isolated",
    "Verif.OsirisCanned.canned_all",
    "Verif.OsirisCanned.canned_unreadable",
    "Verif.OsirisCanned.canned_unreadable_phase",
    "Verif.OsirisCanned.once_dumped_field_partial"
   ],
   "note": "False: fields, moments and final phase spaces are drawn outside every handler; a field dumped once ends the function and no other family is drawn (witness). Whether a figure can be drawn is a parameter."
  },
  {
   "property": "C222",
   "status": "partial",
   "theorems": [
    "Verif.OsirisCanned.window_range",
    "Verif.OsirisCanned.window_fraction",
    "Verif.OsirisCanned.late_mean_between",
    "Verif.OsirisCanned.late_mean_steady",
    "Verif.OsirisCanned.read_spec",
    "Verif.OsirisCanned.sliced_mean",
    "Verif.OsirisCanned.density_entry",
    "Verif.OsirisCanned.density_preferred",
    "Verif.OsirisCanned.density_fallback_partial",
    "Verif.OsirisCanned.thermal_spec",
    "Verif.OsirisCanned.thermal_three_partial",
    "Verif.OsirisCanned.nonzero_range",
    "Verif.OsirisCanned.log_clim"
   ],
   "note": "False for the temperature, which is three times larger from thermal velocities than from the phase space of an isotropic plasma, and for the density, for which any DENSITY entry is taken if none of the known ones is there (witnesses)."
  },
  {
   "property": "C223",
   "status": "partial",
   "theorems": [
    "Verif.OsirisCanned.tex_idempotent",
    "Verif.OsirisCanned.tex_math",
    "Verif.OsirisCanned.join_split",
    "Verif.OsirisCanned.split_join",
    "Verif.OsirisCanned.label_words",
    "Verif.OsirisCanned.labels_faithful",
    "Verif.OsirisCanned.label_single",
    "Verif.OsirisCanned.label_slash_partial"
   ],
   "note": "Proved for labels without dollars of their own; false for labels with some inside, and fractions differ between units and labels (witnesses)."
  },
  {
   "property": "C224",
   "status": "proved",
   "theorems": [
    "Verif.VlasovShard.run_parallel",
    "Verif.VlasovShard.run_devices",
    "Verif.VlasovShard.run_refused",
    "Verif.VlasovShard.integrator_parallel",
    "Verif.VlasovShard.integrator_serial",
    "Verif.VlasovShard.applied_parallel",
    "Verif.VlasovShard.run_collisionless",
    "Verif.VlasovShard.exponentialX_eq",
    "Verif.VlasovShard.splineX_eq",
    "Verif.VlasovShard.streamV_eq",
    "Verif.VlasovShard.divisible_serial",
    "Verif.VlasovShard.splined_refused"
   ],
   "note": "Exact arithmetic; shard_map is modelled by its documented partition into equal blocks. grid.parallel is accepted but has no effect in Vlasov-1D2V and Vlasov-2D."
  },
  {
   "property": "C225",
   "status": "proved",
   "theorems": [
    "Verif.VlasovShard.run_particles",
    "Verif.VlasovShard.run_gauss",
    "Verif.VlasovShard.run_exists",
    "Verif.VlasovShard.collide_density",
    "Verif.VlasovShard.collide_positive",
    "Verif.VlasovShard.collide_exists",
    "Verif.VlasovShard.fp_density",
    "Verif.VlasovShard.fp_lenard_bernstein",
    "Verif.VlasovShard.fp_dougherty",
    "Verif.VlasovShard.beta_plain"
   ],
   "note": "Tridiagonal solves and root finding are relations; existence is proved for the Chang-Cooper types."
  },
  {
   "property": "C226",
   "status": "proved",
   "theorems": [
    "Verif.VlasovShard.run_translation",
    "Verif.VlasovShard.run_reflection",
    "Verif.VlasovShard.run_period",
    "Verif.VlasovShard.run_symmetric",
    "Verif.VlasovShard.periodic_iff",
    "Verif.VlasovShard.mirror_iff",
    "Verif.VlasovShard.mirror_momentum",
    "Verif.VlasovShard.run_unique",
    "Verif.VlasovShard.flip_row",
    "Verif.VlasovShard.collide_move",
    "Verif.VlasovShard.collide_mirror"
   ],
   "note": "Translations for both velocity pushers, the mirror image for the exponential push. The drive of the moved box is the moved drive. Kept symmetries are stated for collisions with one result (Chang-Cooper without iteration, Krook, none)."
  },
  {
   "property": "C227",
   "status": "partial",
   "theorems": [
    "Verif.VlasovSave2.marginal_node",
    "Verif.VlasovSave2.marginal_between",
    "Verif.VlasovSave2.marginal_bilinear",
    "Verif.VlasovSave2.edge_value",
    "Verif.VlasovSave2.negative_partial",
    "Verif.VlasovSave2.saved_node",
    "Verif.VlasovSave2.saved_outside",
    "Verif.VlasovSave2.saved_between",
    "Verif.VlasovSave2.saved_nonneg",
    "Verif.VlasovSave2.saved_order",
    "Verif.VlasovSave2.saved_product",
    "Verif.VlasovSave2.axes_spec",
    "Verif.VlasovSave2.edge_zero_partial",
    "Verif.VlasovSave2.label2d",
    "Verif.VlasovSave2.label2d_whole",
    "Verif.VlasovSave2.label2v"
   ],
   "note": "Proved between the first and the last cell centre; false at the edges: Vlasov-1D2V continues the first cell linearly, so a save axis that spans the grid can start with negative values, and Vlasov-2D saves zero there (witnesses)."
  },
  {
   "property": "C228",
   "status": "proved",
   "theorems": [
    "Verif.Vlasov2d.run_translation",
    "Verif.Vlasov2d.run_period",
    "Verif.Vlasov2d.run_reflection",
    "Verif.Vlasov2d.run_symmetric",
    "Verif.Vlasov2d.periodic_iff",
    "Verif.Vlasov2d.mirror_iff",
    "Verif.Vlasov2d.longitudinal_iff",
    "Verif.Vlasov2d.planar_setups",
    "Verif.Vlasov2d.run_planar",
    "Verif.Vlasov2d.run_uniform",
    "Verif.Vlasov2d.even_interp_exists",
    "Verif.Vlasov2d.even_solve_exists"
   ],
   "note": "Interpolation and tridiagonal solver are external: the mirror image assumes that they have no preferred direction; both assumptions can be met."
  },
  {
   "property": "C229",
   "status": "proved",
   "theorems": [
    "Verif.PicSymmetry.run_same",
    "Verif.PicSymmetry.same_species_order",
    "Verif.PicSymmetry.same_marker_order",
    "Verif.PicSymmetry.same_divided",
    "Verif.PicSymmetry.same_joined",
    "Verif.PicSymmetry.same_scaled",
    "Verif.PicSymmetry.same_test",
    "Verif.PicSymmetry.same_append",
    "Verif.PicSymmetry.run_translation",
    "Verif.PicSymmetry.run_period",
    "Verif.PicSymmetry.run_reflection",
    "Verif.PicSymmetry.run_symmetric"
   ],
   "note": "Exact arithmetic: in floating point the order of markers changes the rounding of sums. Translations without light waves, whose ends are open."
  },
  {
   "property": "C230",
   "status": "proved",
   "theorems": [
    "Verif.VlasovParts.parts_irrelevant",
    "Verif.VlasovParts.order_irrelevant",
    "Verif.VlasovParts.silent_irrelevant",
    "Verif.VlasovParts.lumps_irrelevant",
    "Verif.VlasovParts.run_keeps",
    "Verif.VlasovParts.run_plain",
    "Verif.VlasovParts.spline_parts_fail"
   ],
   "note": "Without collisions, whose operators are not linear. The multi-species Ampere field; the spectral Hampere solver takes one species. False for the cubic-spline push, which adds 1e-30 for every species (spline_parts_fail)."
  },
  {
   "property": "C231",
   "status": "partial",
   "theorems": [
    "Verif.VlasovDeck.mem_names",
    "Verif.VlasovDeck.readable_iff",
    "Verif.VlasovDeck.accepted_iff",
    "Verif.VlasovDeck.setup_iff",
    "Verif.VlasovDeck.faithful_partial",
    "Verif.VlasovDeck.start_iff_partial",
    "Verif.VlasovDeck.filter_dims_unread",
    "Verif.VlasovDeck.diagnostics_needed",
    "Verif.VlasovDeck.filter_defaults_lost",
    "Verif.VlasovDeck.filter_word",
    "Verif.VlasovDeck.collisions_word",
    "Verif.VlasovDeck.unknown_field",
    "Verif.VlasovDeck.unknown_operator_off",
    "Verif.VlasovDeck.diagnostic_off",
    "Verif.VlasovDeck.filter_no_dims",
    "Verif.VlasovDeck.boltzmann_neutral"
   ],
   "note": "Acceptance and set-up are characterized for every deck. Agreement is proved for switches given as truth values or 0 and 1; it fails for words such as off and for the defaults of diagnostics and of the Hou-Li filter, because the run reads the dictionary and not the validated configuration (witnesses)."
  },
  {
   "property": "C232",
   "status": "partial",
   "theorems": [
    "Verif.Vlasov2dDeck.defaults",
    "Verif.Vlasov2dDeck.mem_names",
    "Verif.Vlasov2dDeck.accepted_iff",
    "Verif.Vlasov2dDeck.setup_iff",
    "Verif.Vlasov2dDeck.start_iff",
    "Verif.Vlasov2dDeck.collisions_faithful",
    "Verif.Vlasov2dDeck.faithful_partial",
    "Verif.Vlasov2dDeck.parallel_unread",
    "Verif.Vlasov2dDeck.defaults_lost",
    "Verif.Vlasov2dDeck.switches_word",
    "Verif.Vlasov2dDeck.collisions_word"
   ],
   "note": "Acceptance and set-up are characterized for every deck, and collisions, push and drivers agree for every spelling. The switches of Maxwell's equations and of the filter agree if they are truth values or 0 and 1; given as words they are on whatever the word says, and decks that rely on defaults are accepted and end with KeyError (witnesses)."
  },
  {
   "property": "C233",
   "status": "partial",
   "theorems": [
    "Verif.Vlasov2VDeck.setup_iff",
    "Verif.Vlasov2VDeck.faithful_partial",
    "Verif.Vlasov2VDeck.start_iff_partial",
    "Verif.Vlasov2VDeck.filter_unread",
    "Verif.Vlasov2VDeck.boltzmann_electron",
    "Verif.Vlasov2VDeck.filter_lost",
    "Verif.Vlasov2VDeck.krook_word",
    "Verif.Vlasov2VDeck.ions_alone",
    "Verif.Vlasov2VDeck.diagnostics_needed"
   ],
   "note": "Set-up is characterized for every deck. Collisions and diagnostics agree for plain switches; false for the filter, which is accepted and not there, for the Krook operator switched off by a word, which is refused, and for a run of ions alone, which ends with KeyError although its collisions are off (witnesses)."
  },
  {
   "property": "C234",
   "status": "partial",
   "theorems": [
    "Verif.PicDeck.accepted_iff",
    "Verif.PicDeck.accepted_value",
    "Verif.PicDeck.mem_defaults",
    "Verif.PicDeck.species_iff",
    "Verif.PicDeck.species_spec",
    "Verif.PicDeck.start_iff",
    "Verif.PicDeck.setup_parts",
    "Verif.PicDeck.neutral_partial",
    "Verif.PicDeck.time_needed",
    "Verif.PicDeck.neutral_word",
    "Verif.PicDeck.same_name",
    "Verif.PicDeck.all_components"
   ],
   "note": "Acceptance, species and start are characterized for every deck, and neutrality is proved for every set of species of different names when quasineutrality is given as a truth value; false for the word off, which keeps the background, and for two species of one name, of which the first is not loaded and the background counts the second twice (witnesses). A deck that relies on the default of the integrator ends with KeyError."
  },
  {
   "property": "C235",
   "status": "partial",
   "theorems": [
    "Verif.TfDeck.accepted_iff",
    "Verif.TfDeck.build_iff",
    "Verif.TfDeck.setup_iff",
    "Verif.TfDeck.trapping_needs_rate",
    "Verif.TfDeck.faithful_partial",
    "Verif.TfDeck.trapping_default",
    "Verif.TfDeck.off_word",
    "Verif.TfDeck.gamma_word",
    "Verif.TfDeck.empty_entries"
   ],
   "note": "Acceptance and the first step are characterized for every deck. Agreement is proved for switches given as truth values or 0 and 1; it fails for words such as off, because the run reads the dictionary (witnesses). Accepted decks with trapping end with KeyError under the arguments of the solver itself, and those with a word as gamma or an empty wave-number axis end with TypeError (witnesses)."
  }
 ]
}