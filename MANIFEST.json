{
 "claims": [
  {
   "property": "C01",
   "status": "proved",
   "theorems": [
    "Verif.Bitmask.C01_mask_history_roundtrip"
   ],
   "note": "mask histories of any length; nothing edited in place"
  },
  {
   "property": "C02",
   "status": "proved",
   "theorems": [
    "Verif.Bitmask.C02_history_refines_spec"
   ],
   "note": "refinement of the proxy machine to an index-to-value specification, for every interleaving"
  },
  {
   "property": "C03",
   "status": "proved",
   "theorems": [
    "Verif.Bitmask.C03_visible_aligned"
   ],
   "note": ""
  },
  {
   "property": "C04",
   "status": "proved",
   "theorems": [
    "Verif.Bitmask.C04_setter_guards",
    "Verif.Bitmask.C04_setter_before_fit"
   ],
   "note": ""
  },
  {
   "property": "C05",
   "status": "proved",
   "theorems": [
    "Verif.Bitmask.C05_getitem",
    "Verif.Bitmask.C05_getitem_values",
    "Verif.Bitmask.C05_getitem_rejects",
    "Verif.Bitmask.C05_ndarray_keys_false",
    "Verif.Bitmask.C05_getitem_sees_edits_false"
   ],
   "note": "The _false theorems record two documented/expected uses that do not work: numpy arrays as keys (rejected although the docstring allows them) and in-place edits not yet flushed by a mask change (the returned copy does not see them)."
  },
  {
   "property": "C06",
   "status": "partial",
   "theorems": [
    "Verif.TimeDict.C06_exact_keys_partial",
    "Verif.TimeDict.C06_set_item_partial",
    "Verif.TimeDict.C06_initial_dictionary",
    "Verif.TimeDict.C06_replacement_unchecked_false"
   ],
   "note": "False once dmd_time was replaced by a plain dictionary (nothing is validated): C06_replacement_unchecked_false. Proved for original_time always and for dmd_time as long as it was not replaced by a user dictionary."
  },
  {
   "property": "C07",
   "status": "proved",
   "theorems": [
    "Verif.TimeDict.C07_original_time_independent",
    "Verif.TimeDict.C07_assignment_copies",
    "Verif.TimeDict.C07_equality"
   ],
   "note": "aliasing modelled with a heap of dictionary cells"
  },
  {
   "property": "C08",
   "status": "partial",
   "theorems": [
    "Verif.Time.C08_timesteps_partial",
    "Verif.Time.C08_after_fit",
    "Verif.Time.C08_overshoot_false"
   ],
   "note": "False as stated: C08_overshoot_false (tend - t0 not a multiple of dt gives an entry after tend). Proved: entries are exactly the t0 + i dt before tend + dt, and the full claim when tend - t0 is a multiple of dt. Exact rationals, float rounding of np.arange not modelled."
  },
  {
   "property": "C09",
   "status": "proved",
   "theorems": [
    "Verif.Time.C09_dynamics",
    "Verif.Time.C09_reference_instant"
   ],
   "note": "exact complex arithmetic"
  },
  {
   "property": "C10",
   "status": "proved",
   "theorems": [
    "Verif.Time.C10_window"
   ],
   "note": "exact arithmetic"
  },
  {
   "property": "C100",
   "status": "partial",
   "theorems": [
    "Verif.CostsRank.C100_fixed_global",
    "Verif.CostsRank.C100_short_window",
    "Verif.CostsRank.C100_max_rank",
    "Verif.CostsRank.C100_auto_global_false",
    "Verif.CostsRank.C100_auto_local_false",
    "Verif.CostsRank.C100_max_rank_false",
    "Verif.CostsRank.C100_fraction_global_false",
    "Verif.CostsRank.C100_fraction_local_false",
    "Verif.CostsRank.C100_instance",
    "Verif.CostsRank.C100_alpha_length",
    "Verif.CostsRank.C100_fixed_local",
    "Verif.CostsRank.C100_even_false",
    "Verif.CostsRank.C100_noise_local"
   ],
   "note": "Holds for positive integer ranks, cut to shorter windows, and for a local max_rank within the window. Refuted for svd_rank=0 (global and local), for a global max_rank and for fractions."
  },
  {
   "property": "C101",
   "status": "partial",
   "theorems": [
    "Verif.CostsIo.C101_used",
    "Verif.CostsIo.C101_own_basis_partial",
    "Verif.CostsIo.C101_leak_false",
    "Verif.CostsIo.C101_recorded_false",
    "Verif.CostsIo.C101_caller_false"
   ],
   "note": "Holds for the basis used if all levels have a global SVD. Refuted for mixed levels, for what is recorded and for the caller's dictionary."
  },
  {
   "property": "C102",
   "status": "partial",
   "theorems": [
    "Verif.MrCosts.C102_labels_partial",
    "Verif.MrCosts.C102_instance",
    "Verif.MrCosts.C102_last_window_false",
    "Verif.MrCosts.C102_quiet_window_false",
    "Verif.MrCosts.C102_stationary_false"
   ],
   "note": "Holds if windows of higher levels are at least twice as far apart as those of the first and every window and mode number has a fast mode. Refuted for a shortened last window, for windows with slow modes only, and for mode numbers that are always slow (IndexError)."
  },
  {
   "property": "C103",
   "status": "proved",
   "theorems": [
    "Verif.MrCosts.C103_bands",
    "Verif.MrCosts.C103_error",
    "Verif.MrCosts.C103_exact"
   ],
   "note": "Under the conclusion of C102 (each level's global classes mark the modes outside the lowest local band)."
  },
  {
   "property": "C104",
   "status": "partial",
   "theorems": [
    "Verif.CostsInit.C104_local",
    "Verif.CostsInit.C104_global",
    "Verif.CostsInit.C104_last",
    "Verif.CostsInit.C104_reset_false",
    "Verif.CostsInit.C104_ignored_false",
    "Verif.CostsInit.C104_last_rank_false"
   ],
   "note": "What each window starts from is characterised for all options. Refuted: the effect of use_last_freq and reset_alpha_init with a global SVD, the guess of the first window as default of a local SVD, use_last_freq with ranks that vary."
  },
  {
   "property": "C105",
   "status": "partial",
   "theorems": [
    "Verif.CostsInit.C105_guess_partial",
    "Verif.CostsInit.C105_bands_false",
    "Verif.CostsInit.C105_pairs_false",
    "Verif.CostsInit.C105_argument_false",
    "Verif.CostsInit.C105_alpha_false",
    "Verif.CostsInit.C105_stale_false",
    "Verif.CostsInit.C105_single_false"
   ],
   "note": "Holds for two bands and ranks divisible by four. Refuted for other numbers of bands, for rank 2, for the constructor argument, for init_alpha alone and for repeated clustering."
  },
  {
   "property": "C106",
   "status": "partial",
   "theorems": [
    "Verif.BopSort.C106_sorted",
    "Verif.BopSort.C106_agree",
    "Verif.BopSort.C106_keys",
    "Verif.BopSort.C106_unsupported",
    "Verif.BopSort.C106_auto_false",
    "Verif.BopSort.C106_order"
   ],
   "note": "Proved for bags that agree exactly, in any order, if the key tells the eigenvalues apart. Refuted for bags that agree up to noise: with the default order a conjugate pair may be averaged to a real number."
  },
  {
   "property": "C107",
   "status": "partial",
   "theorems": [
    "Verif.BopSort.C107_forecast",
    "Verif.BopSort.C107_no_spread",
    "Verif.BopSort.C107_errors",
    "Verif.BopSort.C107_stable_partial",
    "Verif.BopSort.C107_single_false",
    "Verif.BopSort.C107_frequency_false",
    "Verif.BopSort.C107_stable_false"
   ],
   "note": "The forecast is characterised for all draws. Refuted: draws change growth rates and never frequencies, so stable bags give unbounded forecasts; a single time raises TypeError."
  },
  {
   "property": "C108",
   "status": "partial",
   "theorems": [
    "Verif.BopEcon.C108_econ",
    "Verif.BopEcon.C108_shapes",
    "Verif.BopEcon.C108_no_basis",
    "Verif.BopEcon.C108_rank_one_false",
    "Verif.BopEcon.C108_rank_false"
   ],
   "note": "Proved for given ranks from 2 on. Refuted for rank 1 and for ranks chosen from the data."
  },
  {
   "property": "C109",
   "status": "partial",
   "theorems": [
    "Verif.HavokSim.Fitted.C109_predict",
    "Verif.HavokSim.Fitted.C109_start_partial",
    "Verif.HavokSim.Fitted.C109_start_false",
    "Verif.HavokSim.Fitted.C109_negative_time",
    "Verif.HavokSim.Fitted.C109_uneven_time",
    "Verif.HavokSim.Fitted.C109_length_false",
    "Verif.HavokSim.Fitted.C109_single_coordinate_false",
    "Verif.HavokSim.Fitted.C109_single_time_false",
    "Verif.HavokSim.Fitted.C109_index",
    "Verif.HavokSim.Fitted.C109_reconstruct_partial",
    "Verif.HavokSim.Fitted.C109_reconstruct_false",
    "Verif.HavokSim.Fitted.C109_shape",
    "Verif.HavokSim.Fitted.C109_default",
    "Verif.HavokSim.Fitted.C109_equation",
    "Verif.HavokSim.Fitted.C109_split"
   ],
   "note": "Proved for times that start at 0, two or more linear coordinates and two or more times. Refuted: later first times move the initial condition; with more than one delay there are more columns than times; a single linear coordinate or a single time always fails; structured HAVOK loses a column."
  },
  {
   "property": "C11",
   "status": "proved",
   "theorems": [
    "Verif.Time.C11_additive"
   ],
   "note": "exact arithmetic"
  },
  {
   "property": "C110",
   "status": "partial",
   "theorems": [
    "Verif.HavokSim.C110_success",
    "Verif.HavokSim.C110_probability_partial",
    "Verif.HavokSim.C110_monotone_partial",
    "Verif.HavokSim.C110_zero_false",
    "Verif.HavokSim.C110_integer_false",
    "Verif.HavokSim.C110_one_sided_false",
    "Verif.HavokSim.C110_monotone_false",
    "Verif.HavokSim.C110_widths_false"
   ],
   "note": "Proved for histograms that are symmetric about 0 (quantile) or have enough on both sides (monotone), with equal bins. Refuted for one-sided forcings, unequal bins, p = 0.0 and integer p."
  },
  {
   "property": "C111",
   "status": "partial",
   "theorems": [
    "Verif.HavokFit.C111_success",
    "Verif.HavokFit.C111_times",
    "Verif.HavokFit.C111_failure_partial",
    "Verif.HavokFit.C111_unfitted",
    "Verif.HavokFit.C111_rank_false",
    "Verif.HavokFit.C111_numpy_step_false",
    "Verif.HavokFit.C111_parameters"
   ],
   "note": "Everything but r is kept by a failing call; r is overwritten by a fit rejected for its rank; NumPy integers are rejected as time step."
  },
  {
   "property": "C112",
   "status": "partial",
   "theorems": [
    "Verif.Param.C112_pointwise",
    "Verif.Param.C112_independent",
    "Verif.Param.C112_linear",
    "Verif.Param.C112_flat_false"
   ],
   "note": "Refuted for one parameter of several components given as a flat list."
  },
  {
   "property": "C113",
   "status": "partial",
   "theorems": [
    "Verif.Spectrum.C113_frequency_partial",
    "Verif.Spectrum.C113_dynamics",
    "Verif.Spectrum.C113_units",
    "Verif.Spectrum.C113_snapshots",
    "Verif.Spectrum.C113_real_false",
    "Verif.Spectrum.C113_growth_false",
    "Verif.Spectrum.C113_neutral_false",
    "Verif.Spectrum.C113_bop_false",
    "Verif.Spectrum.C113_varpro",
    "Verif.Spectrum.C113_window",
    "Verif.Spectrum.C113_mrdmd_false"
   ],
   "note": "frequency is proved for arrays of complex eigenvalues; refuted for arrays of negative real eigenvalues, for growth_rate of all classes but VarProDMD, for BOPDMD (always RuntimeError) and for MrDMD with a time step other than 1."
  },
  {
   "property": "C114",
   "status": "partial",
   "theorems": [
    "Verif.SpDmd.C114_fixed_point_partial",
    "Verif.SpDmd.C114_zero",
    "Verif.SpDmd.C114_modulus_false",
    "Verif.SpDmd.C114_equal_false",
    "Verif.SpDmd.C114_fixed_point_false"
   ],
   "note": "Proved where the soft thresholding of the code is soft thresholding (C52), in particular for rest at 0; refuted else: all amplitudes that are not 0 have modulus |1 - gamma/rho| whatever the data."
  },
  {
   "property": "C115",
   "status": "partial",
   "theorems": [
    "Verif.Plot.C115_F_partial",
    "Verif.Plot.C115_width_height_partial",
    "Verif.Plot.C115_default_false",
    "Verif.Plot.C115_square",
    "Verif.Plot.C115_scrambled_false",
    "Verif.Plot.C115_shape",
    "Verif.Plot.C115_size"
   ],
   "note": "Proved for order F and for coordinates given as width, height; refuted for the defaults: transposed for square snapshots, scrambled for all others."
  },
  {
   "property": "C116",
   "status": "partial",
   "theorems": [
    "Verif.Plot.C116_indexes",
    "Verif.Plot.C116_pairs_partial",
    "Verif.Plot.C116_equal_false",
    "Verif.Plot.C116_total",
    "Verif.Plot.C116_variance_false",
    "Verif.Plot.C116_times_partial",
    "Verif.Plot.C116_shifted_false",
    "Verif.Plot.C116_forecast_false",
    "Verif.Plot.C116_varpro_false",
    "Verif.Plot.C116_step"
   ],
   "note": "Proved for distinct eigenvalues and for the window of the fit. Refuted: equal eigenvalues share colours, the variance shares are shares of the sum of singular values, other windows are drawn at wrong times or raise, VarProDMD raises."
  },
  {
   "property": "C117",
   "status": "partial",
   "theorems": [
    "Verif.Plot.C117_narrow",
    "Verif.Plot.C117_wide",
    "Verif.Plot.C117_empty",
    "Verif.Plot.C117_level_partial",
    "Verif.Plot.C117_level_false"
   ],
   "note": "Limits proved in full; level 0 of plot_eigs_mrdmd is refuted: all levels are drawn."
  },
  {
   "property": "C118",
   "status": "partial",
   "theorems": [
    "Verif.MrCostsState.C118_fit_partial",
    "Verif.MrCostsState.C118_default_false",
    "Verif.MrCostsState.C118_defaults_false",
    "Verif.MrCostsState.C118_refit_false",
    "Verif.MrCostsState.C118_nan_false",
    "Verif.MrCostsState.C118_lengths_false",
    "Verif.MrCostsState.C118_init",
    "Verif.MrCostsWhole.C118_levels_partial"
   ],
   "note": "Proved for every fit that succeeds. Refuted: the default transform_method raises ValueError, the default n_components_array TypeError, a second fit with cluster_sweep ValueError; NaN is swept in the first fit only; lists of different length are cut silently."
  },
  {
   "property": "C119",
   "status": "partial",
   "theorems": [
    "Verif.MrCostsState.C119_bands_partial",
    "Verif.MrCostsState.C119_refit_false"
   ],
   "note": "Proved for fits followed by clusterings; refuted for a fit after a clustering."
  },
  {
   "property": "C12",
   "status": "proved",
   "theorems": [
    "Verif.Rank.C12_rank",
    "Verif.Rank.C12_rank_any",
    "Verif.Rank.C12_compute_svd",
    "Verif.Rank.C12_numpy_integer_false",
    "Verif.Rank.C12_automatic"
   ],
   "note": "np.linalg.svd is a parameter; numpy integers are not recognised as ranks (D05, C12_numpy_integer_false)"
  },
  {
   "property": "C120",
   "status": "partial",
   "theorems": [
    "Verif.MrCostsState.C120_round_trip_partial",
    "Verif.MrCostsState.C120_same_window_false",
    "Verif.MrCostsState.C120_order_false",
    "Verif.MrCostsState.C120_transform_false",
    "Verif.MrCostsState.C120_errors"
   ],
   "note": "Proved for increasing window lengths without repetition; refuted for equal and for decreasing ones and for transform_method."
  },
  {
   "property": "C121",
   "status": "partial",
   "theorems": [
    "Verif.MrCostsState.C121_best",
    "Verif.MrCostsState.C121_default_partial",
    "Verif.MrCostsState.C121_small_rank_false",
    "Verif.MrCostsState.C121_global",
    "Verif.MrCostsState.C121_method_false",
    "Verif.MrCostsState.C121_transform"
   ],
   "note": "Proved for given ranges and for ranks of at least 4; refuted for the default range with smaller ranks and for unknown score methods of mrCOSTS."
  },
  {
   "property": "C122",
   "status": "partial",
   "theorems": [
    "Verif.MrCostsState.C122_input_partial",
    "Verif.MrCostsState.C122_kwargs_false",
    "Verif.MrCostsState.C122_errors"
   ],
   "note": "Proved for default reconstruction arguments; refuted with include_means=False and for negative levels."
  },
  {
   "property": "C123",
   "status": "partial",
   "theorems": [
    "Verif.MrCostsState.C123_periods",
    "Verif.MrCostsState.C123_errors"
   ],
   "note": "Proved for clustered objects; before clustering the error is a TypeError."
  },
  {
   "property": "C124",
   "status": "partial",
   "theorems": [
    "Verif.UqPlot.C124_titles",
    "Verif.UqPlot.C124_pairs_partial",
    "Verif.UqPlot.C124_odd_false",
    "Verif.UqPlot.C124_real_false",
    "Verif.UqPlot.C124_places",
    "Verif.UqPlot.C124_delays",
    "Verif.UqPlot.C124_vanishing_false",
    "Verif.UqPlot.C124_number",
    "Verif.UqPlot.C124_indices",
    "Verif.UqPlot.C124_delays_error"
   ],
   "note": "Places proved in full. The selection is proved for pairs that are neighbours in the order of amplitudes; refuted for a pair stronger than a real mode and for real modes in even number. The average over delays is characterised; it may vanish."
  },
  {
   "property": "C125",
   "status": "partial",
   "theorems": [
    "Verif.HavokPlot.C125_red",
    "Verif.HavokPlot.C125_end_false",
    "Verif.HavokPlot.C125_quiet_false",
    "Verif.HavokPlot.C125_switches_partial",
    "Verif.HavokPlot.C125_switches_false",
    "Verif.HavokPlot.C125_num_plot"
   ],
   "note": "What is drawn in red is characterised exactly; refuted for the last time of each burst, for a forcing that is never active (IndexError), for unsorted switches and for lists of switches."
  },
  {
   "property": "C126",
   "status": "partial",
   "theorems": [
    "Verif.CostsKern.C126_bounds_partial",
    "Verif.CostsKern.C126_first_false",
    "Verif.CostsKern.C126_centre",
    "Verif.CostsKern.C126_symmetric_false",
    "Verif.CostsKern.C126_middle",
    "Verif.CostsKern.C126_zero_false",
    "Verif.CostsKern.C126_constant",
    "Verif.CostsKern.C126_time_partial",
    "Verif.CostsKern.C126_time_false",
    "Verif.CostsKern.C126_time_size",
    "Verif.CostsKern.C126_default_partial"
   ],
   "note": "Bounds proved for all weights but the first, which is negative; closeness to 1 in the middle proved; refuted for symmetry, for sharpness 0 and for one-dimensional times."
  },
  {
   "property": "C127",
   "status": "partial",
   "theorems": [
    "Verif.Wrapped.C127_save_partial",
    "Verif.Wrapped.C127_save_false",
    "Verif.Wrapped.C127_save_layers",
    "Verif.Wrapped.C127_getitem_false",
    "Verif.Wrapped.C127_mr_partial",
    "Verif.Wrapped.C127_mr_false",
    "Verif.Wrapped.C127_mr_length",
    "Verif.Wrapped.C127_summary_partial",
    "Verif.Wrapped.C127_summary_false"
   ],
   "note": "Proved for DMDs without wrapper, for lists and functions given to MrDMD, and for plot_summary with at most one wrapper around BOPDMD. Refuted otherwise."
  },
  {
   "property": "C128",
   "status": "partial",
   "theorems": [
    "Verif.LandoKernel.C128_accepts_partial",
    "Verif.LandoKernel.C128_rejects",
    "Verif.LandoKernel.C128_callable_false",
    "Verif.LandoKernel.C128_dimension_false",
    "Verif.LandoKernel.C128_gradient_partial",
    "Verif.LandoKernel.C128_gamma_false",
    "Verif.LandoKernel.C128_same_gamma",
    "Verif.LandoKernel.C128_without_gradient"
   ],
   "note": "Proved for Python functions that accept any number of features and for gamma other than None; refuted for other callables, for kernels of a fixed dimension and for gamma=None."
  },
  {
   "property": "C129",
   "status": "partial",
   "theorems": [
    "Verif.BopStd.C129_all_active_partial",
    "Verif.BopStd.C129_circles_false",
    "Verif.BopStd.C129_forecast_false",
    "Verif.BopStd.C129_without",
    "Verif.BopStd.C129_modes_false",
    "Verif.BopStd.C129_getitem_false"
   ],
   "note": "Proved as long as all modes are active, after any history. Refuted for every other selection: circles and deviations are those of other modes, and forecast raises ValueError."
  },
  {
   "property": "C13",
   "status": "proved",
   "theorems": [
    "Verif.Rank.C13_least_rank",
    "Verif.Rank.C13_monotone"
   ],
   "note": "exact arithmetic in any ordered field (floats may miss the last step by rounding)"
  },
  {
   "property": "C130",
   "status": "partial",
   "theorems": [
    "Verif.BopOpts.C130_types",
    "Verif.BopOpts.C130_warnings_partial",
    "Verif.BopOpts.C130_values",
    "Verif.BopOpts.C130_default",
    "Verif.BopOpts.C130_nan_false",
    "Verif.BopOpts.C130_floats_false",
    "Verif.BopOpts.C130_start",
    "Verif.BopOpts.C130_constructor",
    "Verif.BopOpts.C130_late_false",
    "Verif.BopOpts.C130_function_false",
    "Verif.BopOpts.C130_infinite",
    "Verif.BopOpts.C130_no_iterations"
   ],
   "note": "Types, values, defaults and constructor characterised exactly; warnings proved for finite numbers. Refuted for nan, for floats in place of integers, for the time of the check, and for constraint functions."
  },
  {
   "property": "C131",
   "status": "partial",
   "theorems": [
    "Verif.CostsPad.C131_bands_partial",
    "Verif.CostsPad.C131_padding_adds_nothing",
    "Verif.CostsPad.C131_padding_false",
    "Verif.CostsPad.C131_period_false",
    "Verif.CostsPad.C131_log10",
    "Verif.CostsPad.C131_errors"
   ],
   "note": "Proved for windows of equal rank; the padding never changes a reconstruction. Refuted for windows of different ranks, where the padding is clustered as frequency 0, and for period, which then raises ValueError."
  },
  {
   "property": "C132",
   "status": "partial",
   "theorems": [
    "Verif.CostsPlot.C132_separation",
    "Verif.CostsPlot.C132_bands_partial",
    "Verif.CostsPlot.C132_single_false",
    "Verif.CostsPlot.C132_kwargs_false",
    "Verif.CostsPlot.C132_time_series_partial",
    "Verif.CostsPlot.C132_residual_false",
    "Verif.CostsPlot.C132_points",
    "Verif.CostsPlot.C132_error_false",
    "Verif.CostsPlot.C132_title_partial",
    "Verif.CostsPlot.C132_title_false"
   ],
   "note": "Panels characterised for fresh dictionaries and at least two bands. Refuted for one band (ValueError), for dictionaries used twice, for the residual of plot_time_series, and for plot_error."
  },
  {
   "property": "C133",
   "status": "partial",
   "theorems": [
    "Verif.RealData.C133_spectrum",
    "Verif.RealData.C133_modes",
    "Verif.RealData.C133_amplitudes",
    "Verif.RealData.C133_optimal",
    "Verif.RealData.C133_reconstruction_partial",
    "Verif.RealData.C133_fit_partial",
    "Verif.RealData.C133_fraction_false",
    "Verif.RealData.C133_forward_backward_false",
    "Verif.RealData.C133_selection_false"
   ],
   "note": "Spectrum, modes, amplitudes and reconstructions at whole time steps (or without negative eigenvalues) proved. Refuted for fractions of a time step, forward_backward, and selections that split a pair."
  },
  {
   "property": "C134",
   "status": "partial",
   "theorems": [
    "Verif.Whole.C134_coordinates",
    "Verif.Whole.C134_rotation",
    "Verif.Whole.C134_amplitudes",
    "Verif.Whole.C134_reconstruction",
    "Verif.Whole.C134_order",
    "Verif.Whole.C134_units_partial",
    "Verif.Whole.C134_units_false",
    "Verif.Whole.C134_rank_false"
   ],
   "note": "Proved for coordinates and order with all options, for units without regularization. Refuted for units with tikhonov_regularization and for the rank chosen by svd_rank=0 with added sensors."
  },
  {
   "property": "C135",
   "status": "partial",
   "theorems": [
    "Verif.Special.C135_tikhonov_zero",
    "Verif.Special.C135_rescale_equal",
    "Verif.Special.C135_dmdc_known",
    "Verif.Special.C135_dmdc_unknown",
    "Verif.Special.C135_dmdc_reconstruction_partial",
    "Verif.Special.C135_dmdc_step_false",
    "Verif.Special.C135_hankel",
    "Verif.Special.C135_hankel_window",
    "Verif.Special.C135_hankel_weight_false"
   ],
   "note": "Proved for all parts. Refuted for DMDc with a time step that is not a multiple of the original one, and HankelDMD with weight 0."
  },
  {
   "property": "C136",
   "status": "proved",
   "theorems": [
    "Verif.Frequencies.C136_linear",
    "Verif.Frequencies.C136_dmd",
    "Verif.Frequencies.C136_hankel",
    "Verif.Frequencies.C136_no_delays_false"
   ],
   "note": "Without delays one sensor is not enough: C136_no_delays_false."
  },
  {
   "property": "C137",
   "status": "partial",
   "theorems": [
    "Verif.Unique.C137_singular_values",
    "Verif.Unique.C137_eigenvalues_partial",
    "Verif.Unique.C137_modes_partial",
    "Verif.Unique.C137_reconstruction_partial",
    "Verif.Unique.C137_tie_false",
    "Verif.Unique.C137_forward_backward_false"
   ],
   "note": "Proved if the singular values jump after the rank (and, for modes and reconstructions, the eigenvalues are different). Refuted for equal singular values at the truncation, and for forward_backward, where the result depends on the signs of the singular vectors."
  },
  {
   "property": "C138",
   "status": "partial",
   "theorems": [
    "Verif.BopOps.C138_full",
    "Verif.BopOps.C138_reduced",
    "Verif.BopOps.C138_agree",
    "Verif.BopOps.C138_generator",
    "Verif.BopOps.C138_errors",
    "Verif.BopOps.C138_prox_false",
    "Verif.BopOps.C138_prox_transposed_false"
   ],
   "note": "Proved without mode_prox. Refuted with mode_prox and use_proj=True (atilde and A belong to different modes), and the function gets transposed matrices depending on use_proj."
  },
  {
   "property": "C139",
   "status": "proved",
   "theorems": [
    "Verif.BopOps.C139_eigenvalues",
    "Verif.BopOps.C139_perfect",
    "Verif.BopOps.C139_truth",
    "Verif.BopOps.C139_alias_false",
    "Verif.BopOps.C139_few_false"
   ],
   "note": "C139_alias_false and C139_few_false show that the conditions on frequency and number of samples are needed."
  },
  {
   "property": "C14",
   "status": "proved",
   "theorems": [
    "Verif.Operator.C14_projection",
    "Verif.Operator.C14_low_rank_unchanged",
    "Verif.Operator.C14_best"
   ],
   "note": ""
  },
  {
   "property": "C140",
   "status": "partial",
   "theorems": [
    "Verif.Continuity.C140_eigenvalues_partial",
    "Verif.Continuity.C140_modes_partial",
    "Verif.Continuity.C140_reconstruction_partial",
    "Verif.Continuity.C140_consistent",
    "Verif.Continuity.C140_overrank_false",
    "Verif.Continuity.C140_tie_false"
   ],
   "note": "Proved if the singular values jump after the rank, without forward_backward (modes and reconstructions for different eigenvalues). Refuted for equal singular values at the truncation and for a rank above that of the data; forward_backward fails by C137."
  },
  {
   "property": "C141",
   "status": "partial",
   "theorems": [
    "Verif.Lando.C141_kernel",
    "Verif.Lando.C141_online",
    "Verif.Lando.C141_poly",
    "Verif.Lando.C141_everywhere",
    "Verif.Lando.C141_linear",
    "Verif.Lando.C141_constant_false"
   ],
   "note": "Proved for dict_tol=0 and weights that solve the least-squares problem. Refuted for the linear kernel and coef0=0 if the system moves the origin: the model has no constant term."
  },
  {
   "property": "C142",
   "status": "partial",
   "theorems": [
    "Verif.SpDmd.C142_gamma_zero_partial",
    "Verif.SpDmd.C142_gamma_large_partial",
    "Verif.SpDmd.C142_nan_false",
    "Verif.SpDmd.C142_sparser_false"
   ],
   "note": "Proved for the two ends. Between them it is refuted: a stopped iteration can zero an amplitude for gamma=6 and not for gamma=12, and an exactly zero entry of the first alpha makes everything NaN, so that nothing is zeroed for any gamma."
  },
  {
   "property": "C143",
   "status": "partial",
   "theorems": [
    "Verif.DmdcOptions.C143_tlsq",
    "Verif.DmdcOptions.C143_lag_false",
    "Verif.DmdcOptions.C143_dt_false"
   ],
   "note": "Proved for tlsq_rank. Refuted for lag (frequency returns l times the frequency of the signal) and for dmd_time dt (the controls enter only in the last of the skipped steps)."
  },
  {
   "property": "C144",
   "status": "partial",
   "theorems": [
    "Verif.DmdcOptions.C144_exact_partial",
    "Verif.DmdcOptions.C144_projected_partial",
    "Verif.DmdcOptions.C144_projected_false",
    "Verif.DmdcOptions.C144_subspace_false",
    "Verif.DmdcOptions.C144_dmdc_false"
   ],
   "note": "Proved for classes with exact=True and, for projected modes, if the SVD is of the snapshots themselves. Refuted for projected modes in general (the code uses the SVD of the snapshots without the last), for SubspaceDMD (AttributeError) and for DMDc (exact modes with the equations of projected modes)."
  },
  {
   "property": "C145",
   "status": "partial",
   "theorems": [
    "Verif.Pidmd.C145_reduced",
    "Verif.Pidmd.C145_triangular_partial",
    "Verif.Pidmd.C145_banded",
    "Verif.Pidmd.C145_diagonal",
    "Verif.Pidmd.C145_symtridiagonal",
    "Verif.Pidmd.C145_toeplitz",
    "Verif.Pidmd.C145_bc",
    "Verif.Pidmd.C145_circulant_partial",
    "Verif.Pidmd.C145_circulant_few_false",
    "Verif.Pidmd.C145_bccb_partial"
   ],
   "note": "Proved for every manifold with data that determine the matrix; for the circulant family only if no frequency is truncated. Refuted for circulant matrices with fewer snapshots than states: the code keeps as many frequencies as the SVD has, although one snapshot determines the matrix."
  },
  {
   "property": "C146",
   "status": "partial",
   "theorems": [
    "Verif.MrDMD.C146_separates",
    "Verif.MrDMD.C146_complex",
    "Verif.MrDMD.C146_real",
    "Verif.MrDMD.C146_nodes",
    "Verif.MrDMD.C146_unequal_false"
   ],
   "note": "Proved for windows of equal length per level, complex data and real data with conjugate pairs, with the existence of the leaf results. Refuted for windows of different length: a component between the two thresholds is removed in one window and kept in the other."
  },
  {
   "property": "C147",
   "status": "partial",
   "theorems": [
    "Verif.Pidmd.C147_reduced",
    "Verif.Pidmd.C147_full_partial",
    "Verif.Pidmd.C147_normal_partial",
    "Verif.Pidmd.C147_circulant",
    "Verif.Pidmd.C147_truncated_false",
    "Verif.Pidmd.C147_compute_A_false"
   ],
   "note": "Proved for the manifolds that return the reduced operator, for full rank, for orthonormal modes, and for the reconstruction of the circulant manifold with and without compute_A. Refuted for a truncated basis (reduced operator is neither the compression nor has eigenvalues of A) and for compute_A of the diagonal manifold."
  },
  {
   "property": "C148",
   "status": "proved",
   "theorems": [
    "Verif.Sampling.C148_signal",
    "Verif.Sampling.C148_resampling",
    "Verif.Sampling.C148_nyquist_needed"
   ],
   "note": "Exact arithmetic; hypotheses are those of the signal (independent coefficients, step below the Nyquist limit, shown to be needed) and the contracts of svd, eig and lstsq, met for every such signal (exists_fit)."
  },
  {
   "property": "C149",
   "status": "partial",
   "theorems": [
    "Verif.FailedFit.C149_dmd_partial",
    "Verif.FailedFit.C149_dmd_reconstruction",
    "Verif.FailedFit.C149_dmd_false",
    "Verif.FailedFit.C149_varpro_partial",
    "Verif.FailedFit.C149_varpro_false",
    "Verif.FailedFit.C149_hankel_partial",
    "Verif.FailedFit.C149_hankel_false",
    "Verif.FailedFit.C149_wrapped_partial",
    "Verif.FailedFit.C149_wrapped_false",
    "Verif.FailedFit.C149_dmdc_partial",
    "Verif.FailedFit.C149_dmdc_false",
    "Verif.Refit.C149_shape"
   ],
   "note": "False of the code: snapshots (and for DMD and DMDc parts of the operator) are replaced before the step that raises. The partial theorems say exactly which attributes remain old and that the reconstruction of DMD and HankelDMD is the previous one; the witnesses are reachable states."
  },
  {
   "property": "C15",
   "status": "proved",
   "theorems": [
    "Verif.Operator.C15_exact_modes",
    "Verif.Operator.C15_projected_modes",
    "Verif.Operator.C15_untruncated",
    "Verif.Operator.C15_zero_eigenvalue_false"
   ],
   "note": "exact=True with a zero eigenvalue excluded; there the code's mode is 0 (D10)"
  },
  {
   "property": "C150",
   "status": "partial",
   "theorems": [
    "Verif.Possible.C150_optdmd",
    "Verif.Possible.C150_dmdc_known",
    "Verif.Possible.C150_dmdc_unknown",
    "Verif.Possible.C150_pidmd_unitary",
    "Verif.Possible.C150_pidmd_symmetric",
    "Verif.Possible.C150_subspace",
    "Verif.Possible.C150_edmd",
    "Verif.Possible.C150_optdmd_units_partial",
    "Verif.Possible.C150_optdmd_small_false",
    "Verif.Possible.C150_dmdc_units_partial",
    "Verif.Possible.C150_dmdc_units_false"
   ],
   "note": "Coordinates proved in full for the classes named. Units are false of the code: the threshold of pinv_diag in OptDMD is absolute, so data in a large unit give the zero operator, and in DMDc without B the unit of the input decides how states and inputs that are not independent are told apart. The partial theorems exclude these cases."
  },
  {
   "property": "C151",
   "status": "partial",
   "theorems": [
    "Verif.RankFit.C151_dmd_partial",
    "Verif.RankFit.C151_svd_rank",
    "Verif.RankFit.C151_optdmd",
    "Verif.RankFit.C151_exact_false"
   ],
   "note": "Proved for projected modes of DMD (with and without Tikhonov), for the dependence of the rank on svd_rank, and for OptDMD. False with exact=True: there the larger rank can predict the pairs worse."
  },
  {
   "property": "C152",
   "status": "partial",
   "theorems": [
    "Verif.BopRun.C152_origin",
    "Verif.BopRun.C152_forecast_partial",
    "Verif.BopRun.C152_initial",
    "Verif.BopRun.C152_constraints",
    "Verif.BopRun.C152_origin_false",
    "Verif.BopRun.C152_unit_partial",
    "Verif.BopRun.C152_unit_false"
   ],
   "note": "Origin: eigenvalues, convergence flag and fitted function agree for all data (C152_origin), and so does the forecast when no amplitude falls below 10 eps of the largest; otherwise the forecast differs (C152_origin_false). Unit: holds for the initial guess, the constraints, and the iteration while the Levenberg-Marquardt scales are not clipped; with clipping the result depends on the unit (C152_unit_false)."
  },
  {
   "property": "C153",
   "status": "partial",
   "theorems": [
    "Verif.BopRun.C153_guess",
    "Verif.BopRun.C153_accuracy",
    "Verif.BopRun.C153_stable",
    "Verif.BopRun.C153_guess_false"
   ],
   "note": "The guess is exactly 2/h tanh(lambda h/2) for independent modes none of which changes sign from one snapshot to the next. For a signal at half the sampling rate the guess does not exist: the matrix that is inverted vanishes (C153_guess_false)."
  },
  {
   "property": "C154",
   "status": "proved",
   "theorems": [
    "Verif.BopRun.C154_guess",
    "Verif.BopRun.C154_pairs",
    "Verif.BopRun.C154_constraints",
    "Verif.BopRun.C154_forecast"
   ],
   "note": "C154_guess gives the pairing for the guess of _initialize_alpha, C154_pairs carries it through the run, C154_forecast covers eigenvalues found in any other way (for instance with the constraint conjugate_pairs, C41)."
  },
  {
   "property": "C155",
   "status": "partial",
   "theorems": [
    "Verif.BopRun.C155_order",
    "Verif.BopRun.C155_unit_partial",
    "Verif.BopRun.C155_unit_false"
   ],
   "note": "Order and coordinates are proved in full. The unit of the data is proved where the scaling of the Jacobian is not clipped; C155_unit_false shows that the clipping to [1e-6, 1] makes the result depend on the unit."
  },
  {
   "property": "C156",
   "status": "partial",
   "theorems": [
    "Verif.Whole.C156_reverse_partial",
    "Verif.Whole.C156_tikhonov_false"
   ],
   "note": "Proved without Tikhonov regularization; with it the property is false (C156_tikhonov_false), as the backward operator is regularized with the norm of X."
  },
  {
   "property": "C157",
   "status": "partial",
   "theorems": [
    "Verif.RankFit.C157_operator",
    "Verif.RankFit.C157_error_partial",
    "Verif.RankFit.C157_size_partial",
    "Verif.RankFit.C157_eigenvalues_false",
    "Verif.RankFit.C157_exact_false"
   ],
   "note": "Operator: proved in full. Predictions and errors: proved for projected modes; with exact=True the error can shrink (C157_exact_false). Eigenvalues can grow (C157_eigenvalues_false)."
  },
  {
   "property": "C158",
   "status": "partial",
   "theorems": [
    "Verif.PidmdReal.C158_circulant_partial",
    "Verif.PidmdReal.C158_circulant_split_false",
    "Verif.PidmdReal.C158_circulant_false",
    "Verif.PidmdReal.C158_bc",
    "Verif.PidmdReal.C158_bctb",
    "Verif.PidmdReal.C158_banded",
    "Verif.PidmdReal.C158_bccb_partial",
    "Verif.PidmdReal.C158_toeplitz_partial",
    "Verif.PidmdReal.C158_hankel_partial",
    "Verif.PidmdReal.C158_toeplitz_false",
    "Verif.PidmdReal.C158_reduced",
    "Verif.PidmdReal.C158_upper"
   ],
   "note": "Proved for block-circulant, banded and triangular manifolds, for the unitary, symmetric and skew-symmetric ones (with real factors), for circulant ones and BCCB if no pair of opposite frequencies is split, for Toeplitz and Hankel if the snapshots determine the operator. The rest is false: the truncation of the circulant manifold splits pairs of opposite frequencies, already with the default rank (C158_circulant_false), and Toeplitz operators that the snapshots do not determine are not real (C158_toeplitz_false)."
  },
  {
   "property": "C159",
   "status": "partial",
   "theorems": [
    "Verif.SpDmd.C159_selection",
    "Verif.SpDmd.C159_amplitudes",
    "Verif.SpDmd.C159_reconstruction_partial"
   ],
   "note": "Selection and amplitudes are proved; the reconstruction is proved for times that are whole numbers of time steps or without negative eigenvalues. At other times it is false for every class, see C133_fraction_false."
  },
  {
   "property": "C16",
   "status": "proved",
   "theorems": [
    "Verif.Operator.C16_projected",
    "Verif.Operator.C16_exact",
    "Verif.Operator.C16_no_span_false"
   ],
   "note": "exact=True needs nonzero eigenvalues; span condition shown necessary"
  },
  {
   "property": "C160",
   "status": "partial",
   "theorems": [
    "Verif.SpDmd.C160_invariant",
    "Verif.SpDmd.C160_units_partial",
    "Verif.SpDmd.C160_units_false"
   ],
   "note": "Coordinates, order and phases are proved, and the units for a given selection of modes. The selection depends on the unit (C160_units_false): the soft thresholding makes every entry of modulus |1 - gamma/rho|, whatever the data."
  },
  {
   "property": "C161",
   "status": "partial",
   "theorems": [
    "Verif.Pidmd.C161_unitary",
    "Verif.Pidmd.C161_unitary_energy",
    "Verif.Pidmd.C161_symmetric",
    "Verif.Pidmd.C161_circulant",
    "Verif.Pidmd.C161_circulant_energy",
    "Verif.Pidmd.C161_circulant_compute_A_false",
    "Verif.Pidmd.C161_unitary_best"
   ],
   "note": "Proved for the unitary, symmetric and skew-symmetric manifolds and for the circulant ones without compute_A. With compute_A a truncated circulant_unitary operator maps some states to zero (C161_circulant_compute_A_false)."
  },
  {
   "property": "C162",
   "status": "partial",
   "theorems": [
    "Verif.VarPro.C162_initial",
    "Verif.VarPro.C162_run",
    "Verif.VarPro.C162_exponents",
    "Verif.VarPro.C162_forecast_partial",
    "Verif.VarPro.C162_stale_false",
    "Verif.VarPro.C162_unit_residual",
    "Verif.VarPro.C162_unit_initial_partial",
    "Verif.VarPro.C162_unit_false"
   ],
   "note": "The run of the optimizer and the exponents are the same for shifted times (C162_run, C162_exponents); the forecasts are if the returned point was evaluated last (C162_forecast_partial), else not (C162_stale_false). In another unit the residual is the same function (C162_unit_residual) but the initial guess scales the wrong way (C162_unit_initial_partial, C162_unit_false)."
  },
  {
   "property": "C163",
   "status": "partial",
   "theorems": [
    "Verif.Alias.C163_caller",
    "Verif.Alias.C163_mrdmd",
    "Verif.Alias.C163_leaf_partial",
    "Verif.Alias.C163_leaf_false",
    "Verif.Alias.C163_keeps_partial",
    "Verif.Alias.C163_array_false",
    "Verif.Alias.C163_times",
    "Verif.Alias.C163_dmdc_false",
    "Verif.Alias.C163_edmd_false"
   ],
   "note": "The arrays of the caller and the snapshots of MrDMD survive a fit (C163_caller, C163_mrdmd); snapshots given as a list are private (C163_keeps_partial). Matrices stay shared with the caller (C163_array_false), which DMDc and EDMD read after the fit (C163_dmdc_false, C163_edmd_false), as are the times of fit_econ and VarProDMD (C163_times). The leaves of MrDMD hold the final residual (C163_leaf_partial, C163_leaf_false)."
  },
  {
   "property": "C164",
   "status": "partial",
   "theorems": [
    "Verif.RealData.C164_dmdc_known",
    "Verif.RealData.C164_dmdc_unknown",
    "Verif.RealData.C164_dmdc_reconstruction",
    "Verif.RealData.C164_optdmd_partial",
    "Verif.RealData.C164_optdmd_false",
    "Verif.RealData.C164_edmd",
    "Verif.RealData.C164_subspace",
    "Verif.RealData.C164_cdmd"
   ],
   "note": "Proved for the five classes, given real singular vectors and a pairing of the eigenvectors (which C133 shows to exist). For OptDMD the modes need that no eigenvalue has the threshold of pinv_diag as its real part (C164_optdmd_partial): there the pair is split (C164_optdmd_false)."
  },
  {
   "property": "C165",
   "status": "proved",
   "theorems": [
    "Verif.Param.C165_partitioned",
    "Verif.Param.C165_monolithic"
   ],
   "note": "Both methods. The POD is assumed to reduce and expand in the same way for both orders of the columns."
  },
  {
   "property": "C166",
   "status": "partial",
   "theorems": [
    "Verif.HavokSim.C166_steps",
    "Verif.HavokSim.C166_trajectory_partial",
    "Verif.HavokSim.C166_predict_partial",
    "Verif.HavokSim.C166_reconstruct_partial",
    "Verif.HavokSim.Fitted.C109_start_false"
   ],
   "note": "Proved for times that start at 0. Otherwise lsim carries the initial condition from time 0 to the first time (C109_start_false)."
  },
  {
   "property": "C167",
   "status": "partial",
   "theorems": [
    "Verif.HavokModel.C167_signs_partial",
    "Verif.HavokModel.C167_predict_partial",
    "Verif.HavokModel.C167_structured_partial",
    "Verif.HavokModel.C167_structured_false",
    "Verif.HavokModel.C167_time_unit",
    "Verif.HavokModel.C167_data_unit"
   ],
   "note": "Proved for structured=False. With structured=True the two decompositions are computed separately and the result depends on how their signs happen to match (C167_structured_false); the same is proved when they match (C167_structured_partial)."
  },
  {
   "property": "C168",
   "status": "partial",
   "theorems": [
    "Verif.Lando.C168_coordinates",
    "Verif.Lando.C168_components",
    "Verif.Lando.C168_rescale",
    "Verif.Lando.C168_units_partial",
    "Verif.Lando.C168_units_false",
    "Verif.Lando.C168_order_partial",
    "Verif.Lando.C168_online_partial",
    "Verif.Lando.C168_order_false"
   ],
   "note": "Coordinates and components: proved. Units: proved if x_rescale (or gamma, or dict_tol for the linear kernel) is adapted; with dict_tol kept the claim is false (C168_units_false). Order and online learning: proved for dict_tol = 0; for every positive dict_tol the model depends on the random order (C168_order_false)."
  },
  {
   "property": "C169",
   "status": "partial",
   "theorems": [
    "Verif.Variables.C169_eigenvalues_partial",
    "Verif.Variables.C169_modes_partial",
    "Verif.Variables.C169_reconstruction_partial",
    "Verif.Variables.C169_truncated_false",
    "Verif.Variables.C169_few_false"
   ],
   "note": "Proved if the rank of the truncation is that of the data and the snapshots Y are combinations of the snapshots X (always so with as many independent snapshots as channels). False for truncated fits (C169_truncated_false) and for fewer snapshots than channels (C169_few_false)."
  },
  {
   "property": "C17",
   "status": "partial",
   "theorems": [
    "Verif.Operator.C17_rescaling",
    "Verif.Operator.C17_zero_factor_false",
    "Verif.Operator.C17_history_partial",
    "Verif.Operator.C17_auto_refit_false"
   ],
   "note": "rescaling proved for positive factors; zero factors (D06) and repeated fits with 'auto' (D07) refuted"
  },
  {
   "property": "C170",
   "status": "partial",
   "theorems": [
    "Verif.ParamShared.C170_fit",
    "Verif.ParamShared.C170_read",
    "Verif.ParamShared.C170_separate",
    "Verif.ParamShared.C170_coefficients",
    "Verif.ParamShared.C170_same_dmd_false",
    "Verif.ParamShared.C170_same_pod_false",
    "Verif.ParamShared.C170_failure_false"
   ],
   "note": "Proved if no object is given twice: fit and reconstructed_data are those of the properties with private objects (C170_fit, C170_read), and instances with different objects are independent (C170_separate). False if one DMD instance is given for several parameters (C170_same_dmd_false), if two instances share a POD (C170_same_pod_false) and after a fit that raises in one of the DMDs (C170_failure_false)."
  },
  {
   "property": "C171",
   "status": "partial",
   "theorems": [
    "Verif.CostsWhole.C171_background_fit",
    "Verif.CostsWhole.C171_background_partial",
    "Verif.CostsWhole.C171_origin_fit",
    "Verif.CostsWhole.C171_origin",
    "Verif.CostsWhole.C171_times",
    "Verif.CostsWhole.C171_reverse_false",
    "Verif.CostsWhole.C171_global_false"
   ],
   "note": "Background: proved with global_svd=False and a rank that is not a fraction of the energy (C171_background_fit, C171_background_partial); false with global_svd=True, the default (C171_global_false). Origin of time: proved for all options (C171_origin_fit, C171_origin). Times of the windows: proved for times that do not decrease (C171_times), false for times in reverse order (C171_reverse_false)."
  },
  {
   "property": "C172",
   "status": "partial",
   "theorems": [
    "Verif.VarPro.C172_coordinates",
    "Verif.VarPro.C172_full",
    "Verif.VarPro.C172_unit_partial",
    "Verif.VarPro.C172_unit_false"
   ],
   "note": "Coordinates: proved. Unit of the data: proved for optimizers that do not depend on the unit of the residual, refuted for one that compares the gradient with gtol at the starting point (D233)."
  },
  {
   "property": "C173",
   "status": "proved",
   "theorems": [
    "Verif.Param.C173_coordinates",
    "Verif.Param.C173_unit",
    "Verif.Param.C173_pod"
   ],
   "note": "The POD is ezyrb's (reduce = modes^H M, expand = modes v), with modes any matrix; C173_pod: the turned left singular vectors are those of the turned data. Unit: the DMD class and the interpolator are assumed not to depend on the unit (structure Sim)."
  },
  {
   "property": "C174",
   "status": "proved",
   "theorems": [
    "Verif.CostsWhole.C174_local",
    "Verif.CostsWhole.C174_global",
    "Verif.CostsWhole.C174_succeeds",
    "Verif.CostsWhole.C174_too_many",
    "Verif.CostsWhole.C174_rejects"
   ],
   "note": "fit from the data to the arrays, with BOPDMD on a window and the SVD as parameters; ranks given as integers for the global SVD"
  },
  {
   "property": "C175",
   "status": "proved",
   "theorems": [
    "Verif.CostsWhole.C175_fit",
    "Verif.CostsWhole.C175_bands"
   ],
   "note": "for numerical routines that follow the unit and the order (singular values C53, BOPDMD C155), recorded as the structure Turns"
  },
  {
   "property": "C176",
   "status": "proved",
   "theorems": [
    "Verif.CostsWhole.C176_fit",
    "Verif.CostsWhole.C176_bands"
   ],
   "note": "for numerical routines that follow the unit of time (BOPDMD: C152), recorded as the structure Clocks; k-means and argsort are assumed independent of unit and origin of their values (UnitFree, OrderOnly); a given initial guess is converted too"
  },
  {
   "property": "C177",
   "status": "proved",
   "theorems": [
    "Verif.MrCostsWhole.C177_units",
    "Verif.MrCostsWhole.C177_time",
    "Verif.MrCostsWhole.C177_origin"
   ],
   "note": "for numerical routines that follow units and order (Turns, Clocks, UnitFree, OrderOnly as in C175 and C176); the choice of the sweep is assumed independent of unit and origin of the transformed frequencies; a given basis or initial guess is converted too"
  },
  {
   "property": "C178",
   "status": "partial",
   "theorems": [
    "Verif.MrCostsWhole.C178_background_partial",
    "Verif.CostsWhole.C171_global_false"
   ],
   "note": "for local SVD, include_means=True and overlapping windows; with the default global_svd=True the code refutes it (C171_global_false: the projection basis is computed from the data with their background)"
  },
  {
   "property": "C179",
   "status": "proved",
   "theorems": [
    "Verif.Dmdc.C179_causal",
    "Verif.Dmdc.C179_superposition",
    "Verif.Dmdc.C179_restart"
   ],
   "note": "for two-dimensional control inputs; one-dimensional ones raise (C39)"
  },
  {
   "property": "C18",
   "status": "proved",
   "theorems": [
    "Verif.Operator.C18_sorting"
   ],
   "note": ""
  },
  {
   "property": "C19",
   "status": "partial",
   "theorems": [
    "Verif.Operator.C19_exact",
    "Verif.Operator.C19_projected_partial",
    "Verif.Operator.C19_projected_false"
   ],
   "note": "exact=True proved; exact=False only with Y given; without Y refuted (D08)"
  },
  {
   "property": "C20",
   "status": "proved",
   "theorems": [
    "Verif.Snap.C20_array",
    "Verif.Snap.C20_list",
    "Verif.Snap.C20_injective",
    "Verif.Snap.C20_errors"
   ],
   "note": ""
  },
  {
   "property": "C21",
   "status": "proved",
   "theorems": [
    "Verif.Hankel.C21_entries"
   ],
   "note": ""
  },
  {
   "property": "C22",
   "status": "proved",
   "theorems": [
    "Verif.Hankel.C22_post_pre",
    "Verif.Hankel.C22_rejections"
   ],
   "note": ""
  },
  {
   "property": "C23",
   "status": "partial",
   "theorems": [
    "Verif.Hankel.C23_window_partial",
    "Verif.Hankel.C23_before_training_false",
    "Verif.Hankel.C23_coarser_step_false",
    "Verif.Hankel.C23_shifted_origin_false",
    "Verif.Hankel.C23_before_columns_false"
   ],
   "note": "holds for windows from 0 on with the original step and origin; refuted otherwise (D11-D13)"
  },
  {
   "property": "C24",
   "status": "partial",
   "theorems": [
    "Verif.Prepost.C24_zero_mean",
    "Verif.Prepost.C24_randomized",
    "Verif.Prepost.C24_svd_projection_partial",
    "Verif.Prepost.C24_svd_projection_complex_false"
   ],
   "note": "SVD projection only for real data; refuted for complex data (D14)"
  },
  {
   "property": "C25",
   "status": "proved",
   "theorems": [
    "Verif.Prepost.C25_round_trip",
    "Verif.Prepost.C25_order",
    "Verif.Prepost.C25_refit"
   ],
   "note": ""
  },
  {
   "property": "C26",
   "status": "partial",
   "theorems": [
    "Verif.Refit.C26_dmd_partial",
    "Verif.Refit.C26_dmd_auto_partial",
    "Verif.Refit.C26_dmd_auto_raises",
    "Verif.Refit.C26_dmd_auto_false",
    "Verif.Refit.C26_rdmd_given_partial",
    "Verif.Refit.C26_rdmd_seed_partial",
    "Verif.Refit.C26_rdmd_raises",
    "Verif.Refit.C26_rdmd_false",
    "Verif.Refit.C26_bop_same_data_partial",
    "Verif.Refit.C26_bop_keeps_first",
    "Verif.Refit.C26_bop_noproj_raises",
    "Verif.Refit.C26_bop_given_partial",
    "Verif.Refit.C26_bop_false",
    "Verif.Refit.C26_bop_noproj_false",
    "Verif.Refit.C26_bop_given_false",
    "Verif.Refit.C26_varpro_forecast",
    "Verif.Refit.C26_varpro_unread_partial",
    "Verif.Refit.C26_varpro_stale",
    "Verif.Refit.C26_varpro_false",
    "Verif.Refit.C26_mrdmd_level",
    "Verif.Refit.C26_mrdmd_iff",
    "Verif.Refit.C26_mrdmd_false",
    "Verif.Refit.C26_varpro_last"
   ],
   "note": "Proved for DMD with rescale_mode other than 'auto' (any history of fits, failures, masks, writes), RDMD with a given test matrix or equal shapes, BOPDMD refitted on the same data or with everything given, VarProDMD when nothing was read in between (always for forecast), MrDMD exactly when no earlier data lowered the level. Refuted otherwise for each of these classes. The other classes are not covered (LANDO: C75, C76)."
  },
  {
   "property": "C27",
   "status": "partial",
   "theorems": [
    "Verif.MrDMD.C27_addresses",
    "Verif.MrDMD.C27_last_write",
    "Verif.MrDMD.C27_invalid",
    "Verif.MrDMD.C27_negative_leaf_false"
   ],
   "note": "negative leaves are not rejected (D18); everything else proved for all depths and histories"
  },
  {
   "property": "C28",
   "status": "proved",
   "theorems": [
    "Verif.MrDMD.C28_partition"
   ],
   "note": ""
  },
  {
   "property": "C29",
   "status": "partial",
   "theorems": [
    "Verif.MrDMD.C29_telescoping",
    "Verif.MrDMD.C29_integer_false"
   ],
   "note": "proved for additive dtype conversions (complex and real data); refuted for integer data (D19)"
  },
  {
   "property": "C30",
   "status": "proved",
   "theorems": [
    "Verif.MrDMD.C30_tiling",
    "Verif.MrDMD.C30_invalid",
    "Verif.MrDMD.C30_bins"
   ],
   "note": "exact rational times; negative leaves as in D18"
  },
  {
   "property": "C31",
   "status": "partial",
   "theorems": [
    "Verif.MrDMD.C31_clamp_partial",
    "Verif.MrDMD.C31_three_snapshots_false",
    "Verif.MrDMD.C31_refit_false",
    "Verif.MrDMD.C31_sequence_false"
   ],
   "note": "refuted for three snapshots, refits and sequences of DMDs (D20-D22)"
  },
  {
   "property": "C32",
   "status": "partial",
   "theorems": [
    "Verif.Tuner.C32_select_partial",
    "Verif.Tuner.C32_keep_all",
    "Verif.Tuner.C32_masked_false"
   ],
   "note": "Proved for instances with all modes active (any history) and, for any mask, for criteria that keep every active mode. On an instance with inactive modes the code drops the wrong modes (witness)."
  },
  {
   "property": "C33",
   "status": "proved",
   "theorems": [
    "Verif.Tuner.C33_stabilize",
    "Verif.Tuner.C33_idempotent",
    "Verif.Tuner.C33_first_step"
   ],
   "note": "Any history of masks and writes; inner radius not negative (a negative radius with a zero eigenvalue gives nan in numpy)."
  },
  {
   "property": "C34",
   "status": "partial",
   "theorems": [
    "Verif.Tuner.C34_threshold_partial",
    "Verif.Tuner.C34_inclusive_false",
    "Verif.Tuner.C34_stable_partial",
    "Verif.Tuner.C34_stable_errors",
    "Verif.Tuner.C34_zero_distance_false"
   ],
   "note": "Proved away from the thresholds; the documented inclusive bounds are strict in the code (witness) and a common distance 0 counts as not given (witness)."
  },
  {
   "property": "C35",
   "status": "partial",
   "theorems": [
    "Verif.Tuner.C35_strongest_partial",
    "Verif.Tuner.C35_zero_false"
   ],
   "note": "Proved for n >= 1 with any sorting permutation as argsort; n = 0 selects all the modes (witness)."
  },
  {
   "property": "C36",
   "status": "proved",
   "theorems": [
    "Verif.Tuner.C36_isolation",
    "Verif.Tuner.C36_tuning",
    "Verif.Tuner.C36_single",
    "Verif.Tuner.C36_criteria"
   ],
   "note": "Isolation for every operation sequence, contents after tuning and subset tuning, order and shape, rejected criteria."
  },
  {
   "property": "C37",
   "status": "proved",
   "theorems": [
    "Verif.Param.C37_arrange",
    "Verif.Param.C37_split",
    "Verif.Param.C37_forecast_partitioned",
    "Verif.Param.C37_forecast_monolithic",
    "Verif.Param.C37_roll"
   ],
   "note": "Arrangement, per-parameter split after fit (any DMD behaviour), forecast reshape for both methods, axis rolls."
  },
  {
   "property": "C38",
   "status": "proved",
   "theorems": [
    "Verif.Param.C38_window",
    "Verif.Param.C38_errors"
   ],
   "note": "The DMD class is a parameter whose dmd_time can be read back. Distinct instances in a partition."
  },
  {
   "property": "C39",
   "status": "proved",
   "theorems": [
    "Verif.Dmdc.C39_recurrence",
    "Verif.Dmdc.C39_lengths",
    "Verif.Dmdc.C39_one_dimensional_false"
   ],
   "note": "For two-dimensional controls and unchanged time step. A one-dimensional control accepted by fit is rejected by reconstructed_data (D30)."
  },
  {
   "property": "C40",
   "status": "partial",
   "theorems": [
    "Verif.Differentiate.C40_exact_partial",
    "Verif.Differentiate.C40_one_dimensional",
    "Verif.Differentiate.C40_errors",
    "Verif.Differentiate.C40_complex_false",
    "Verif.Differentiate.C40_shape_false"
   ],
   "note": "Exact for real data, both boundaries included; complex data lose the imaginary part (D31) and one-row arrays change shape (D32)."
  },
  {
   "property": "C41",
   "status": "partial",
   "theorems": [
    "Verif.BopEigs.C41_real_parts",
    "Verif.BopEigs.C41_minimal_change",
    "Verif.BopEigs.C41_conjugate_partial",
    "Verif.BopEigs.C41_fixed",
    "Verif.BopEigs.C41_idempotent_partial",
    "Verif.BopEigs.C41_same_side_false",
    "Verif.BopEigs.C41_two_real_false",
    "Verif.BopEigs.C41_repeated_false",
    "Verif.BopEigs.C41_check"
   ],
   "note": "Real-part constraints, fixed points and rejected sets in full; closure under conjugation if nearest conjugates lie across the real axis. Same-side eigenvalues, two real eigenvalues and repeated pairs contradict the claim (negations proved). set.pop is any choice function."
  },
  {
   "property": "C42",
   "status": "proved",
   "theorems": [
    "Verif.Bop.C42_bag"
   ],
   "note": "np.random.choice by specification."
  },
  {
   "property": "C43",
   "status": "partial",
   "theorems": [
    "Verif.Bop.C43_outcome",
    "Verif.Bop.C43_statistics",
    "Verif.Bop.C43_terminates",
    "Verif.Bop.C43_keep",
    "Verif.Bop.C43_zero_false",
    "Verif.Bop.C43_never"
   ],
   "note": "For bag_maxfail >= 1 the outcome after any number of trials is characterised, and for negative values the loop never raises; bag_maxfail = 0 raises after a success (negation proved)."
  },
  {
   "property": "C44",
   "status": "partial",
   "theorems": [
    "Verif.Bop.C44_descent_partial",
    "Verif.Bop.C44_constraints_partial",
    "Verif.Bop.C44_perfect_guess_false",
    "Verif.Bop.C44_zero_data_false",
    "Verif.Bop.C44_nan_step_false",
    "Verif.Bop.C44_stops_partial"
   ],
   "note": "For errors that are numbers; the code's behaviour with NaN errors and with a perfect initial guess contradicts the claim (negations proved)."
  },
  {
   "property": "C45",
   "status": "proved",
   "theorems": [
    "Verif.Costs.C45_windows",
    "Verif.Costs.C45_rounding",
    "Verif.Costs.C45_errors"
   ],
   "note": "Windows of fit for every length, window length and step; the rounding of the number of windows is a parameter with both outcomes covered; error branches included."
  },
  {
   "property": "C46",
   "status": "partial",
   "theorems": [
    "Verif.Costs.C46_weighted_mean",
    "Verif.Costs.C46_exact_partial",
    "Verif.Costs.C46_separation",
    "Verif.Costs.C46_all_times_partial",
    "Verif.Costs.C46_means_false"
   ],
   "note": "Weighted mean and separation proved in full. Exactness needs an eigenvalue in the band with the smallest centroid; without one the means are lost (negation proved). Exact arithmetic."
  },
  {
   "property": "C47",
   "status": "proved",
   "theorems": [
    "Verif.Costs.C47_relabel"
   ],
   "note": "For every result argsort may return and all labels."
  },
  {
   "property": "C48",
   "status": "partial",
   "theorems": [
    "Verif.Havok.C48_roundtrip_partial",
    "Verif.Havok.C48_one_dim_partial",
    "Verif.Havok.C48_too_few",
    "Verif.Havok.C48_gap_false",
    "Verif.Havok.C48_complex_false",
    "Verif.Havok.C48_rejects"
   ],
   "note": "Round trip for real data and windows without gaps (an exact condition); with a larger lag some columns are never assigned, and imaginary parts are dropped (negations proved)."
  },
  {
   "property": "C49",
   "status": "partial",
   "theorems": [
    "Verif.Lando.C49_split",
    "Verif.Lando.C49_derivative_partial",
    "Verif.Lando.C49_nonlinear_partial",
    "Verif.Lando.C49_rbf_negated_partial",
    "Verif.Lando.C49_rbf_false"
   ],
   "note": "Splitting proved for all kernels; derivative proved for the linear and polynomial kernels (natural degree) including rescaling; for RBF the code has the wrong sign, refuted and the negated statement proved."
  },
  {
   "property": "C50",
   "status": "partial",
   "theorems": [
    "Verif.Pidmd.C50_unitary",
    "Verif.Pidmd.C50_unitary_full",
    "Verif.Pidmd.C50_unitary_truncated_false",
    "Verif.Pidmd.C50_skew",
    "Verif.Pidmd.C50_symmetric_partial",
    "Verif.Pidmd.C50_symmetric_full",
    "Verif.Pidmd.C50_symmetric_complex_false",
    "Verif.Pidmd.C50_symmetric_thin_false",
    "Verif.Pidmd.C50_upper_partial",
    "Verif.Pidmd.C50_lower_partial",
    "Verif.Pidmd.C50_upper_deficient_false",
    "Verif.Pidmd.C50_upper_thin_false",
    "Verif.Pidmd.C50_widths",
    "Verif.Pidmd.C50_banded",
    "Verif.Pidmd.C50_default_rank_false",
    "Verif.Pidmd.C50_check",
    "Verif.Pidmd.C50_symtridiagonal",
    "Verif.Pidmd.C50_names"
   ],
   "note": "Unitary: optimal on the projected data, unitary in full only without truncation (refuted otherwise). Skew: proved for all data with positive singular values kept. Symmetric: proved for real data, refuted for complex data and for fewer snapshots than states. Triangular: proved for data of full row rank, refuted otherwise. Banded: proved for all data. Symmetric tridiagonal: proved for real data. Defaults of two manifolds raise TypeError."
  },
  {
   "property": "C51",
   "status": "partial",
   "theorems": [
    "Verif.SpDmd.C51_constrained_optimum",
    "Verif.SpDmd.C51_loop_partial",
    "Verif.SpDmd.C51_final_iterate_false"
   ],
   "note": "Optimality proved for any discarded set, exact=True. The discarded set is read from the last but one iterate (D33)."
  },
  {
   "property": "C52",
   "status": "partial",
   "theorems": [
    "Verif.SpDmd.C52_soft_threshold_false",
    "Verif.SpDmd.C52_zero_false",
    "Verif.SpDmd.C52_threshold_partial"
   ],
   "note": "False: the code computes ((1-k)/|v|) v instead of (1-k/|v|) v, and NaN at 0. Proved what does hold."
  },
  {
   "property": "C53",
   "status": "proved",
   "theorems": [
    "Verif.Rank.C53_scale_invariant",
    "Verif.Rank.C53_auto_at_most_half"
   ],
   "note": ""
  },
  {
   "property": "C54",
   "status": "partial",
   "theorems": [
    "Verif.Operator.C54_forward_backward_partial",
    "Verif.Operator.C54_forward_backward_false"
   ],
   "note": "refuted in general (D09); holds when the two SVD bases agree"
  },
  {
   "property": "C55",
   "status": "proved",
   "theorems": [
    "Verif.Operator.C55_tikhonov_ridge"
   ],
   "note": ""
  },
  {
   "property": "C56",
   "status": "partial",
   "theorems": [
    "Verif.Hankel.C56_hankel_input_partial",
    "Verif.Hankel.C56_hankel_input_false"
   ],
   "note": "refuted (D15); accepted inputs characterised"
  },
  {
   "property": "C57",
   "status": "partial",
   "theorems": [
    "Verif.Prepost.C57_edit_partial",
    "Verif.Prepost.C57_assign_false",
    "Verif.Prepost.C57_fit_returns_inner_false"
   ],
   "note": "in-place edits proved, assignment and return value refuted (D16, D17)"
  },
  {
   "property": "C58",
   "status": "partial",
   "theorems": [
    "Verif.Time.C08_after_fit",
    "Verif.MrDMD.C58_mrdmd_timesteps_false"
   ],
   "note": "holds for DMD; refuted for MrDMD (D23)"
  },
  {
   "property": "C59",
   "status": "partial",
   "theorems": [
    "Verif.Tuner.C59_nullify_false",
    "Verif.Tuner.C32_keep_all"
   ],
   "note": "The code ignores nullify_amplitudes (witness); the claim holds only when no mode is discarded."
  },
  {
   "property": "C60",
   "status": "proved",
   "theorems": [
    "Verif.Operator.C60_predict",
    "Verif.Operator.C60_next_state",
    "Verif.Operator.C60_trajectory"
   ],
   "note": "predict as coded, pinv by its Moore-Penrose conditions."
  },
  {
   "property": "C61",
   "status": "proved",
   "theorems": [
    "Verif.Param.C61_training_data"
   ],
   "note": "End to end through fit, parameters and reconstructed_data; the components are parameters with the stated behaviour."
  },
  {
   "property": "C62",
   "status": "partial",
   "theorems": [
    "Verif.Param.C62_rejected_fit_false",
    "Verif.Param.C62_rejected_fit_partial",
    "Verif.Param.C62_unusable_false"
   ],
   "note": "Fails: fit stores the number of parameters before checking the number of DMDs (witness)."
  },
  {
   "property": "C63",
   "status": "proved",
   "theorems": [
    "Verif.Dmdc.C63_known_B",
    "Verif.Dmdc.C63_unknown_B"
   ],
   "note": "Exact arithmetic; the SVDs, eig and pinv are assumed to meet their specifications. The excitation conditions are the hypotheses (range of X invariant and containing the range of B; full row rank of the stacked matrix)."
  },
  {
   "property": "C64",
   "status": "proved",
   "theorems": [
    "Verif.SpDmd.C64_alpha_step"
   ],
   "note": "Exact arithmetic, L L^H = P + rho/2 assumed of the Cholesky routine."
  },
  {
   "property": "C65",
   "status": "partial",
   "theorems": [
    "Verif.Costs.C65_ordered_partial",
    "Verif.Costs.C65_period_reversed",
    "Verif.Costs.C65_period_false",
    "Verif.Costs.C65_default_false"
   ],
   "note": "Holds for absolute, square_frequencies and log10 with non-zero frequencies, distinct centroids and nearest-centroid labels; false for period (reversed) and with the default transform (raises)."
  },
  {
   "property": "C66",
   "status": "proved",
   "theorems": [
    "Verif.Havok.C66_least_squares",
    "Verif.Havok.C66_least_squares_pinv",
    "Verif.Havok.C66_lstsq_option",
    "Verif.Havok.C66_recovery",
    "Verif.Havok.C66_back",
    "Verif.Havok.C66_checks"
   ],
   "note": "lstsq, pinv and SVD by specification; exact arithmetic."
  },
  {
   "property": "C67",
   "status": "proved",
   "theorems": [
    "Verif.Havok.C67_slices"
   ],
   "note": "For every non-empty list of integers."
  },
  {
   "property": "C68",
   "status": "partial",
   "theorems": [
    "Verif.Bop.C68_forecast_partial",
    "Verif.Bop.C68_dropped",
    "Verif.Bop.C68_zero_false"
   ],
   "note": "For modes above the threshold; the dropped ones are characterised, and if all fitted coefficients are zero the modes are NaN (negation proved)."
  },
  {
   "property": "C69",
   "status": "partial",
   "theorems": [
    "Verif.BopEigs.C69_unchanged_partial",
    "Verif.BopEigs.C69_overwritten_false"
   ],
   "note": "Unchanged unless stable is given without conjugate_pairs and some real part is positive; then it is overwritten (negation proved)."
  },
  {
   "property": "C70",
   "status": "proved",
   "theorems": [
    "Verif.Pidmd.C70_toeplitz",
    "Verif.Pidmd.C70_hankel",
    "Verif.Pidmd.C70_bc",
    "Verif.Pidmd.C70_bctb",
    "Verif.Pidmd.C70_bccb",
    "Verif.Pidmd.C70_bccb_nan"
   ],
   "note": "Exact arithmetic; lstsq solutions are parameters; BCCB: conditional on no 0/0 and relative to the truncated frequencies (unitary only without truncation)."
  },
  {
   "property": "C71",
   "status": "partial",
   "theorems": [
    "Verif.Pidmd.C71_circulant_partial",
    "Verif.Pidmd.C71_circulant_rank_partial",
    "Verif.Pidmd.C71_circulant_modes",
    "Verif.Pidmd.C71_circulant_unitary_truncated_false",
    "Verif.Pidmd.C71_circulant_complex_false",
    "Verif.Pidmd.C71_circulant_zero_mean_false"
   ],
   "note": "Proved for real snapshots whenever no 0/0 occurs; refuted for complex snapshots, for truncated unitary, and for zero-mean data (NaN)."
  },
  {
   "property": "C72",
   "status": "proved",
   "theorems": [
    "Verif.Lando.C72_factor",
    "Verif.Lando.C72_distance",
    "Verif.Lando.C72_growth",
    "Verif.Lando.C72_cover",
    "Verif.Lando.C72_subset",
    "Verif.Lando.C72_independent"
   ],
   "note": "Exact arithmetic; kernel given by a feature map (positive semidefinite); lstsq is a parameter with its specification."
  },
  {
   "property": "C73",
   "status": "proved",
   "theorems": [
    "Verif.Lando.C73_online",
    "Verif.Lando.C73_online_batch",
    "Verif.Lando.C73_dictionary"
   ],
   "note": "Exact arithmetic; kernel given by a feature map, first snapshot with nonzero feature (otherwise the code divides by zero)."
  },
  {
   "property": "C74",
   "status": "proved",
   "theorems": [
    "Verif.Lando.C74_modes",
    "Verif.Lando.C74_spectrum"
   ],
   "note": "Exact arithmetic, real gradient and weights; svd and eig are parameters with their specification."
  },
  {
   "property": "C75",
   "status": "partial",
   "theorems": [
    "Verif.Lando.C75_parts_partial",
    "Verif.Lando.C75_derivative_partial",
    "Verif.Lando.C75_refit_false",
    "Verif.Lando.C75_stale_linear_false",
    "Verif.Lando.C75_guards"
   ],
   "note": "Proved for histories whose last fit/analysis is an analysis with compute_A=True; refuted for refits and for compute_A=False after compute_A=True."
  },
  {
   "property": "C76",
   "status": "partial",
   "theorems": [
    "Verif.Lando.C76_orbit_partial",
    "Verif.Lando.C76_multidim_false",
    "Verif.Lando.C76_rescale_partial",
    "Verif.Lando.C76_rescale_refit_false"
   ],
   "note": "Proved for one-dimensional snapshots; refuted for multi-dimensional ones."
  },
  {
   "property": "C77",
   "status": "proved",
   "theorems": [
    "Verif.Compressed.C77_same_rank",
    "Verif.Compressed.C77_compressed_is_dmd",
    "Verif.Compressed.C77_linear_system",
    "Verif.Compressed.C77_inconsistent_false"
   ],
   "note": "Without forward_backward. The condition on the right snapshots is needed: C77_inconsistent_false."
  },
  {
   "property": "C78",
   "status": "proved",
   "theorems": [
    "Verif.Compressed.C78_best_coefficients",
    "Verif.Compressed.C78_captured_is_dmd",
    "Verif.Compressed.C78_auto_rank_false"
   ],
   "note": "For a given truncation rank. With svd_rank=0 the rank is computed from the shape of the compressed data: C78_auto_rank_false."
  },
  {
   "property": "C79",
   "status": "partial",
   "theorems": [
    "Verif.Compressed.C79_sample",
    "Verif.Compressed.C79_errors",
    "Verif.Compressed.C79_options_false",
    "Verif.Compressed.C79_scaling_partial",
    "Verif.Compressed.C79_random"
   ],
   "note": "Sampling, arrays and errors proved; rescale_mode='auto' and tikhonov_regularization refuted. The distributions of the random matrices are not modelled."
  },
  {
   "property": "C80",
   "status": "partial",
   "theorems": [
    "Verif.OptDmd.C80_optimal_kept",
    "Verif.OptDmd.C80_optimal_partial",
    "Verif.OptDmd.C80_small_data_false",
    "Verif.OptDmd.C80_modes"
   ],
   "note": "Proved when no singular value of X is in (0, 2.2e-12], in general for the data with those values set to zero; refuted for small data. Without tlsq."
  },
  {
   "property": "C81",
   "status": "partial",
   "theorems": [
    "Verif.OptDmd.C81_eigenvectors_partial",
    "Verif.OptDmd.C81_left",
    "Verif.OptDmd.C81_modes_vanish",
    "Verif.OptDmd.C81_modes_false",
    "Verif.OptDmd.C81_predict_false"
   ],
   "note": "Modes and left eigenvectors satisfy the eigenvalue equation; modes are not zero for eigenvalues with real part above the threshold and zero for those below. predict with 'evd' always raises."
  },
  {
   "property": "C82",
   "status": "partial",
   "theorems": [
    "Verif.Subspace.C82_rank",
    "Verif.Subspace.C82_linear_partial",
    "Verif.Subspace.C82_zero_eigenvalue_false",
    "Verif.Subspace.C82_auto_false"
   ],
   "note": "Proved for nonzero eigenvalues; refuted for eigenvalue zero (the mode is not a number) and for rescale_mode='auto' (always ValueError). Noisy data are not covered."
  },
  {
   "property": "C83",
   "status": "partial",
   "theorems": [
    "Verif.Edmd.C83_koopman_partial",
    "Verif.Edmd.C83_nonzero",
    "Verif.Edmd.C83_complete",
    "Verif.Edmd.C83_eig_false"
   ],
   "note": "For orthonormal eigenvectors of the Gram matrix (not guaranteed by np.linalg.eig: refuted without) and singular values above the threshold of pinv, at least the rank retained."
  },
  {
   "property": "C84",
   "status": "partial",
   "theorems": [
    "Verif.Edmd.C84_orbit",
    "Verif.Edmd.C84_stored_partial",
    "Verif.Edmd.C84_positions_false"
   ],
   "note": "Over the stored eigenvalues from the first step on, if the discarded ones are exactly zero; refuted as to the positions, as eigenfunctions returns the discarded ones too."
  },
  {
   "property": "C85",
   "status": "proved",
   "theorems": [
    "Verif.Edmd.C85_linear",
    "Verif.Edmd.C85_series"
   ],
   "note": "If no retained singular value is below the threshold of pinv; orthonormal eigenvectors assumed as for C83."
  },
  {
   "property": "C86",
   "status": "partial",
   "theorems": [
    "Verif.Edmd.C86_init",
    "Verif.Edmd.C86_rank",
    "Verif.Edmd.C86_with_Y",
    "Verif.Edmd.C86_without_Y_false",
    "Verif.Edmd.C86_energy"
   ],
   "note": "Refuted for fit without Y: eigenfunctions always raises."
  },
  {
   "property": "C87",
   "status": "partial",
   "theorems": [
    "Verif.VarPro.C87_residual",
    "Verif.VarPro.C87_joint",
    "Verif.VarPro.C87_deficient_false"
   ],
   "note": "If the singular values of the exponentials are nonzero (different exponents); refuted for coinciding exponents."
  },
  {
   "property": "C88",
   "status": "partial",
   "theorems": [
    "Verif.VarPro.C88_real",
    "Verif.VarPro.C88_imag_partial",
    "Verif.VarPro.C88_gradient",
    "Verif.VarPro.C88_imag_false"
   ],
   "note": "Proved for the real parts; refuted for the imaginary parts, where the second term has the wrong sign; the gradient is still exact."
  },
  {
   "property": "C89",
   "status": "proved",
   "theorems": [
    "Verif.BopStep.C89_step",
    "Verif.BopStep.C89_descent",
    "Verif.BopStep.C89_search",
    "Verif.BopStep.C89_stationary"
   ],
   "note": "Exact arithmetic; the truncated SVD is assumed to lose nothing (independent exponentials)."
  },
  {
   "property": "C90",
   "status": "partial",
   "theorems": [
    "Verif.VarPro.C90_forecast",
    "Verif.VarPro.C90_unused",
    "Verif.VarPro.C90_stale_false",
    "Verif.VarPro.C90_snapshots"
   ],
   "note": "If the last evaluated point is the returned one; refuted otherwise, as the coefficients are those of the last evaluation. An unused exponential makes all forecasts NaN."
  },
  {
   "property": "C91",
   "status": "partial",
   "theorems": [
    "Verif.VarPro.C91_initial_partial",
    "Verif.VarPro.C91_initial_false",
    "Verif.VarPro.C91_start_partial"
   ],
   "note": "The start values are the reciprocals of the eigenvalues."
  },
  {
   "property": "C92",
   "status": "partial",
   "theorems": [
    "Verif.VarPro.C92_sorted",
    "Verif.VarPro.C92_auto_partial",
    "Verif.VarPro.C92_forecast",
    "Verif.VarPro.C92_auto_false"
   ],
   "note": "Refuted for 'auto', which sorts by signed real or imaginary parts."
  },
  {
   "property": "C93",
   "status": "partial",
   "theorems": [
    "Verif.VarPro.C93_samples",
    "Verif.VarPro.C93_ssr",
    "Verif.VarPro.C93_reconstructed",
    "Verif.VarPro.C93_count",
    "Verif.VarPro.C93_few_samples_false"
   ],
   "note": "Refuted if at most one sample would be selected (TypeError)."
  },
  {
   "property": "C94",
   "status": "partial",
   "theorems": [
    "Verif.MrDMD.C94_window_partial",
    "Verif.MrDMD.C94_window_false"
   ],
   "note": "Exact for multiples of 2**level, otherwise the leaf may end up to 2**level/4 after its interval; false in general."
  },
  {
   "property": "C95",
   "status": "proved",
   "theorems": [
    "Verif.MrDMD.C95_slow",
    "Verif.MrDMD.C95_oscillation",
    "Verif.MrDMD.C95_zero",
    "Verif.MrDMD.C95_instance",
    "Verif.MrDMD.C95_damped_false"
   ],
   "note": "The reading of max_cycles as a number of oscillations alone fails for damped modes, C95_damped_false."
  },
  {
   "property": "C96",
   "status": "proved",
   "theorems": [
    "Verif.MrDMD.C96_product",
    "Verif.MrDMD.C96_partial_reconstruction",
    "Verif.MrDMD.C96_aligned",
    "Verif.MrDMD.C96_partial",
    "Verif.MrDMD.C96_invalid",
    "Verif.MrDMD.C96_window",
    "Verif.MrDMD.C96_instance",
    "Verif.MrDMD.C96_unfitted"
   ],
   "note": "The state of the tree after fit is described by the structure Fitted; negative leaves are D-listed at C27."
  },
  {
   "property": "C97",
   "status": "proved",
   "theorems": [
    "Verif.Hodmd.C97_input",
    "Verif.Hodmd.C97_round_trip",
    "Verif.Hodmd.C97_reconstruction",
    "Verif.Hodmd.C97_operator"
   ],
   "note": ""
  },
  {
   "property": "C98",
   "status": "partial",
   "theorems": [
    "Verif.Prepost.C98_centred_partial",
    "Verif.Prepost.C98_default_false",
    "Verif.Prepost.C98_projection_false"
   ],
   "note": "Y is passed on as it is. Harmless for zero mean over time; the default zero mean and the SVD projection are refuted."
  },
  {
   "property": "C99",
   "status": "partial",
   "theorems": [
    "Verif.CostsIo.C99_round_trip_partial",
    "Verif.CostsIo.C99_global",
    "Verif.CostsIo.C99_recluster_false",
    "Verif.CostsIo.C99_local_false",
    "Verif.CostsIo.C99_callable_false",
    "Verif.CostsIo.C99_storable",
    "Verif.CostsIo.C99_unfinished"
   ],
   "note": "All attributes but the allocated rank and the constructor options come back. Refuted: clustering a restored object, conversion after a fit with a rank per window, functions as keyword arguments."
  }
 ]
}