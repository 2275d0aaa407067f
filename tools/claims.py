N="Verif.ParSlices."
c("C01","proved","joblib modelled as a pool with arbitrary start/finish order; exceptions of tasks are the subject of C164",
  N+"parallel_process_slices_eq_map",N+"parallel_process_slices_progress")
N="Verif.BackProj."
c("C02","partial","The code violates the full claim: prange over angles with recon[y,x] += val is an unprotected read-modify-write; refuted by an explicit interleaving. Proved: any interleaving with per-pixel mutual exclusion, and any single-threaded execution, gives the angle sum.",
  N+"back_projection_cpu_lost_update_refuted",N+"back_projection_cpu_schedule_partial",N+"back_projection_cpu_one_thread_partial")
c("C03","proved","",N+"back_projection_gpu_correct",N+"back_projection_gpu_chunk_correct",N+"back_projection_gpu_chunk_eq_single")
c("C04","proved","exact arithmetic; float rounding of f_pos not modelled",N+"back_projection_reads_in_range",N+"back_projection_value_between")
N="Verif.Sorting."
c("C05","proved","argsort is any sorting permutation, possibly different per line",N+"sort_backward_forward",N+"sort_forward_sorted")
c("C06","proved","",N+"stripe_sorting_ranks",N+"stripe_sorting_identity",N+"stripe_sorting_fixes_stripe_free",N+"stripe_sorting_preserves_order")
N="Verif.Io."
c("C07","proved","directory = finite name->content map; the parent directory itself exists",N+"make_file_name_fresh",N+"save_image_no_overwrite")
c("C08","proved","freshness is w.r.t. existing folders (the code tests isdir); glob treated as prefix test (prefix without glob metacharacters)",N+"make_folder_name_fresh")
c("C09","partial","False of the code: only the last five digits are kept, slice 100000 overwrites slice 0 (refuted). Proved for stacks of at most 100000 images.",
  N+"save_image_multiple_collision_refuted",N+"save_image_multiple_names_partial",N+"save_image_multiple_contents_partial")
c("C10","partial","Names are injective for every slice number; string order equals slice order below 100000 slices and fails at 100000 (refuted).",
  N+"extract_names_injective",N+"extract_names_sorted_partial",N+"extract_names_sorted_refuted")
c("C11","partial","False of the code for index=-1, which writes every slice (refuted). Proved for 0<=start<stop<=len and 0<=i<len and the default.",
  N+"extract_negative_index_refuted",N+"extract_tuple_partial",N+"extract_int_partial")
c("C12","partial","False of the code for -2n <= idx < -n (refuted for every n at -n-1). Proved for all other indices.",
  N+"tif_stack_index_refuted",N+"tif_stack_index_partial")
c("C13","partial","False of the code: len(arr)==3 is tested instead of ndim (refuted for 3-row images and for every stack whose depth is not 3).",
  N+"check_field_refuted",N+"check_field_partial",N+"check_field_mismatch")
c("C14","partial","False for stacks of zero mean (refuted); proved when the mean is non-zero, in particular non-negative stacks with a positive value.",
  N+"fix_zero_div_refuted",N+"fix_zero_div_partial",N+"fix_zero_div_nonneg_partial")
c("C61","partial","False of the code: check and write are separate steps (refuted by an interleaving). Proved when the two calls do not overlap.",
  N+"concurrent_save_image_refuted",N+"sequential_save_image_partial")
c("C62","proved","float printing/parsing is an abstract inverse pair without white space",N+"distortion_file_round_trip")

N="Verif.Stitch."
c("C15","proved","exact arithmetic",N+"stitch_image_glues",N+"stitch_image_panorama")
c("C16","partial","False of the code: norm is passed in the position of another parameter and ignored, so norm=False still normalises (refuted). Proved where the options coincide; panorama theorem for lists.",
  N+"stitch_image_multiple_norm_refuted",N+"stitch_image_multiple_norm_partial",N+"stitch_image_multiple_panorama_partial",N+"stitch_image_multiple_total_width")
c("C17","proved","",N+"join_image_joins",N+"join_image_norm_mean")
c("C18","partial","Proved for axes at whole and half pixels (convert_360_to_180_geometry). False of the code elsewhere: the shift for the fraction s of the overlap is twice too large, and the two halves appear displaced by s/2 in opposite directions (convert_360_fraction, convert_360_fraction_refuted).",N+"convert_360_to_180_geometry",N+"convert_360_fraction",N+"convert_360_fraction_refuted")
c("C19","partial","False for an overlap of one column (refuted); proved otherwise for axes at whole and half pixels; elsewhere the data are displaced by half the fraction of the overlap from the returned centre (extend_fraction).",N+"extend_sinogram_refuted",N+"extend_sinogram_partial",N+"extend_fraction")
c("C63","partial","False of the code: the weight ramp is stored in an integer array (refuted); proved for storage that keeps the weights.",N+"stitch_image_int_refuted",N+"stitch_image_int_partial")
N="Verif.Helical."
c("C20","proved","exact arithmetic",N+"helical_sinogram_correct",N+"helical_no_index_error")
N="Verif.Center."
c("C21","partial","find_center_360 proved; find_center_projection is off by half a pixel for every input (refuted), adding 1/2 makes it right.",
  N+"find_center_360_right",N+"find_center_projection_refuted",N+"find_center_projection_partial")
c("C22","partial","False of the code: side=None swaps denoise and norm (refuted); proved when they are equal.",N+"find_overlap_options_refuted",N+"find_overlap_options_swapped",N+"find_overlap_options_partial")
c("C23","partial","False at the largest window and at the first/last two positions (refuted); find_overlap_position_exact gives the result for all windows at every other position.",N+"find_overlap_position_exact",
  N+"find_overlap_position_refuted",N+"find_overlap_position_partial",N+"search_window_in_range")
c("C24","partial","Result minimises the metric over candidates for every schedule; fine search can leave the interval when step does not divide it (refuted) and the serial path rounds to float32, so ncore can matter (refuted).",
  N+"search_best",N+"coarse_candidates",N+"fine_search_interval_refuted",N+"fine_candidates_partial",N+"search_ncore_refuted",N+"search_ncore_partial")
c("C25","proved","",N+"wrap_shift_smallest",N+"wrap_shift_subpixel",N+"refine_half",N+"center_phase_mirror")
c("C64","proved","Whole and half positions without assumption; elsewhere the spline shift is a parameter that is exact for the scene (completed_mirror; linear interpolation and a linear scene meet this).",N+"center_metric_mirror","Verif.CenterMetric.completed_mirror")

N="Verif.Removal."
c("C26","proved","smoothing filter is a parameter; exact arithmetic",N+"normalization_blocks",N+"normalization_sorted",N+"normalization_identity",N+"normalization_too_many_chunks")
c("C27","proved","select_zinger is any selection of a subset of the mask; size>=1",N+"remove_zinger_only_outliers")
c("C28","proved","interpolate_inside_stripe for every kind (the spline is a parameter; FITPACK is assumed to interpolate the data row by row, to need k + 1 rows and good columns, and, in interpolate_kind_restores, to be exact for polynomials); for every stripe detector, and with the detector of the code; the smoothing filter is a parameter",N+"interpolate_inside_stripe_fills",N+"remove_dead_stripe_good_columns",N+"dilate_spec",N+"remove_large_stripe_columns",N+"large_stripe_factor_mean","Verif.Stripe.remove_large_stripe_own","Verif.Stripe.remove_dead_stripe_own","Verif.Stripe.interpolate_kind_spec","Verif.Stripe.interpolate_kind_restores","Verif.Stripe.interpolate_kind_linear","Verif.Stripe.firstPoly_exact")
c("C29","partial","False of the code: remove_blob_1d builds the interpolant from the mask before its edges are zeroed (ValueError when the first/last three pixels are masked) and both functions modify the caller's mask (refuted). Proved: correct values otherwise, and for every mask in remove_blob.",
  N+"remove_blob_1d_refuted",N+"remove_blob_1d_partial",N+"remove_blob_partial")

N="Verif.Correction."
c("C30","proved","exact arithmetic; that the arguments are not modified is shown on a model with arrays in memory (flat_field_memory)",N+"flat_field_correct",N+"flat_field_dead",N+"flat_field_memory")
c("C31","partial","False of the code: the slab of unwarp_sinogram_chunk ends one row short (refuted; with no distortion the last row is a copy of the row before). Proved: unwarp_sinogram equals the unwarped projections, and the chunk does whenever its slab covers the rows it samples.",
  N+"unwarp_sinogram_eq",N+"unwarp_chunk_last_row",N+"unwarp_chunk_refuted",N+"unwarp_chunk_partial",N+"unwarp_chunk_identity_partial",N+"unwarp_projection_identity")
c("C33","partial","False of the code: the factor is 2^(scale/2), wrong from scale 6 on (refuted), odd scales are rejected. Proved: the row count for every scale and correctness for scales 2 and 4.",
  N+"upsample_rows_eq",N+"upsample_scale_refuted",N+"upsample_scale_partial",N+"upsample_odd_rejected")
c("C65","partial","False of the code: the mean is truncated when stored in an integer array (refuted); proved when flat and dark differ everywhere.",N+"flat_field_int_refuted",N+"flat_field_int_partial")
c("C66","proved","exact reals",N+"tilted_line",N+"tilted_sinogram_eq",N+"tilted_chunk_eq_single",N+"tilted_sinogram_zero",N+"tilted_coordinates_in_range")
N="Verif.BeamHardening."
c("C32","proved","real numbers",N+"beam_hardening_monotone",N+"beam_hardening_image")

N="Verif.Phase."
c("C35","proved","exact reals",N+"wrap_to_pi")
c("C36","proved","exact reals; scipy's dctn/idctn are modelled by their defining sums and idctn is proved to invert dctn",N+"wrapped_gradient_eq",N+"unwrap_cosine_exact",N+"idctn_dctn")
c("C37","partial","False of the code for every non-square size: both axes are divided by the width (refuted, iff); holds for squares.",N+"fc_window_transpose_refuted",N+"fc_window_transpose_iff",N+"fc_window_transpose_partial")
N="Verif.DarkField."
c("C38","partial","False with the default margin, which truncates the largest shift while the index rounds it (refuted). Proved for every explicit margin not smaller than the largest shift, any ncore and schedule.",
  N+"dark_field_margin_refuted",N+"dark_field_correct_partial",N+"dark_field_no_error_partial")

N="Verif.Fourier."
c("C34","proved","exact complex arithmetic with the DFT given by its defining sum (idft2_dft2 is proved); pad modes edge/reflect as used by each function",N+"fresnel_ratio_zero",N+"fresnel_constant",N+"fresnel_linear",N+"mtf_identity",N+"wedge_filter_keeps",N+"separate_frequency_sum")
c("C45","proved","any width, pad and pad mode (any index map whose middle is the identity)",N+"ramp_filter_convolution",N+"centered_spec",N+"ramp_even",N+"rampKernel_eq","Verif.Recon.ramp_filter_even","Verif.Recon.kerC_even")
c("C67","partial","False of the code for even sizes: the gaussian is centred at (n-1)/2 while the zero frequency sits at n/2 (refuted for every nonzero constant, with the exact gain).",N+"separate_gain",N+"separate_constants_refuted",N+"gaussian_filter_gain",N+"gaussian_constants_refuted")
N="Verif.Surface."
c("C68","proved","pad = 0, exact complex arithmetic",N+"scs_poisson",N+"surface_scs")
c("C69","partial","False for every even height (refuted: the gaussian window keeps the fraction 1-exp(-1/(2 size^2)) of each stripe); proved for every odd height.",N+"damping_residue",N+"damping_stripes_refuted",N+"damping_stripes_partial")
c("C70","partial","False for even sizes (refuted; with v=0 the zero row is not damped at all); proved for odd sizes.",N+"butterworth_centred_refuted",N+"butterworth_misses_zero_row",N+"butterworth_centred_partial")

N="Verif.Post."
c("C39","partial","False of the code: the dataset version returns the mean of slice medians as mean and the median of slice means as median (refuted), and every one-slice data set is rejected (refuted). Proved: single-image statistics, and min/max/percentile/variance columns of the dataset version.",
  N+"stat_info",N+"stat_dataset_partial",N+"stat_dataset_swapped",N+"stat_dataset_mean_refuted",N+"stat_dataset_single_refuted",N+"npPercentile_spec",N+"IsPercentile.unique")
c("C40","partial","Proved for mean, max, min (image and data set versions, numpy reshape modelled by C-order flat indices). False for median: the code takes medians of row medians (refuted).",
  N+"downsample_cells_partial",N+"downsample_dataset_partial",N+"downsample_median_partial",N+"downsample_median_refuted")
c("C41","proved","exact reals; gmin=gmax (division by zero, NaN) is an error in the model",N+"rescale_bounded_monotone",N+"rescale_errors")
c("C42","partial","Proved for downsample_dataset; false of rescale_dataset, which opens its stream with overwrite=False whatever the option (refuted); hdf output.",
  N+"downsample_overwrite",N+"rescale_overwrite_ignored",N+"rescale_overwrite_refuted",N+"rescale_overwrite_partial")
c("C43","partial","Proved for tif input, any chunk, both axes, any crop with at least two images and two output slices, and for hdf input with no front crop. False for hdf input with a front crop (refuted) and for one image or one output slice (refuted).",
  N+"reslice_partial",N+"reslice_hdf_crop_refuted",N+"reslice_single_refuted",N+"resliceName_distinct")
c("C44","partial","False of the code: rmtree(splitext(output)[0]) removes a pre-existing folder of that name (refuted); proved when nothing existed below it.",
  N+"reslice_deletes_refuted",N+"reslice_deletes_nothing_partial",N+"reslice_cleans_up")

N="Verif.LogStep."
c("C46","partial","False as stated: with apply_log the caller's non-positive values are overwritten by 1 (reconstruction_input_unchanged_refuted). Proved: exact effect, unchanged iff apply_log is off or all values are positive, dfi always unchanged, repeated calls give the same data, vertical reconstruction.",N+"direct_caller",N+"reconstruction_input_unchanged_refuted",N+"reconstruction_input_unchanged_partial",N+"reconstruction_repeatable_partial",N+"dfi_input_unchanged",N+"center_search_input",N+"vertical_caller",N+"vertical_input_unchanged_partial")
N="Verif.Vertical."
c("C47","proved","All slice offsets, angles in [0,180] degrees and widths; exact error condition.",N+"vertical_points",N+"vertical_points_line",N+"vertical_points_error",N+"vertical_points_opposite")
c("C48","proved","Accumulated slice (before the final filter, mask and scaling, which act on it alone) for all chunk sizes, thread counts, assignments, interleavings and store orders; exact arithmetic.",N+"vertical_bp_cpu_correct",N+"vertical_bp_cpu_chunk_correct",N+"vertical_bp_gpu_correct",N+"vertical_reconstruction_chunk_independent",N+"vertical_reconstruction_multiple_eq_single",N+"vertical_reconstruction_gpu_eq",N+"vertical_reconstruction_checks",N+"multiple_lines_get",N+"complete_schedule_exists")
N="Verif.VerticalCenter."
c("C49","partial","False for integer start/stop/step (metrics truncated). Proved for float candidates; for integer candidates the loss is below one metric unit; candidates may run past stop and raise.",N+"find_center_vertical_partial",N+"find_center_vertical_refuted",N+"find_center_vertical_int_partial",N+"find_center_vertical_error",N+"mem_centers")

N="Verif.Correlation."
c("C50","proved","All images/stacks and sizes; error condition included; CPU and GPU formulas agree. Exact arithmetic.",N+"correlation_map_spec",N+"coef_bounded",N+"coef_eq_one_iff",N+"coef_eq_neg_one",N+"coef_constant",N+"coef_gain_invariant",N+"coef_comm",N+"correlation_map_gpu_eq_cpu")
c("C51","proved","1D and 2D refinement and locate_peak itself.",N+"locate1d_diff_half",N+"locate1d_diff_parabola",N+"locate1d_diff_edge",N+"locate1d_poly_parabola",N+"locate2d_diff_quadratic",N+"locate_peak_max",N+"locate_peak_min")
N="Verif.Umpa."
c("C52","proved","Exact arithmetic; the hypotheses (signal varies / is nonzero in the window) exclude only the division by zero.",N+"umpa_dark_optimal",N+"umpa_optimal",N+"umpa_cost_nonneg",N+"umpa_dark_exact",N+"umpa_exact",N+"umpa_shift")
N="Verif.LocalShifts."
c("C53","partial","False as stated: empty chunks raise (local_shifts_index_error), the documented minimum size fails (local_shifts_minimum_height_refuted), chunk_size=1 fails (local_shifts_chunk_one_refuted), and y-only search with the default normalisation depends on chunking (find_local_shifts_y_norm_refuted). Proved: full-size result equal to the one-chunk result when there are at most as many chunks as rows to process.",N+"local_shifts_partial",N+"local_shifts_chunk_independent_partial",N+"find_local_shifts_2d_partial",N+"find_local_shifts_y_partial","Verif.GpuShifts.shifts_x",N+"local_shifts_index_error",N+"local_shifts_too_small",N+"local_shifts_minimum_height_refuted",N+"local_shifts_chunk_one_refuted",N+"find_local_shifts_y_norm_refuted")
N="Verif.Correlation."
c("C71","partial","Proved for sizes above 2*margin+3; below that the code silently answers (0,0) (find_shift_small_refuted).",N+"find_shift_recovers_partial",N+"find_shift_axis1_partial",N+"find_shift_axis0_partial",N+"find_shift_small_refuted",N+"exShift_hyp")

N="Verif.GlobalShift."
c("C54","partial","Oddness is false for mixed with an odd number >= 7 of points (global_value_mixed_neg_refuted, for every such number); everything else proved for all lists and modes, plus outlier tolerance.",N+"global_value_between",N+"global_value_perm",N+"global_value_const",N+"global_value_affine",N+"global_value_neg_partial",N+"global_value_mixed_neg_refuted",N+"global_value_robust")
c("C72","partial","Chunkings with empty chunks raise (C53). dim=1: along x for every chunk size and both settings of norm (with norm=True the hypothesis is about the normalised lines, and shifts_x_norm_recovers gives it for rolled lines of a common brightness factor); along y for norm=False only, because with norm=True the result depends on the chunking (find_local_shifts_y_norm_refuted).","Verif.LocalShifts.find_local_shifts_recovers_partial","Verif.GpuShifts.hybrid_recovers_partial","Verif.GpuShifts.gpu_recovers_partial",N+"find_shift_template","Verif.LocalShifts.exL_shift","Verif.GpuShifts.pixCol_recovers","Verif.GpuShifts.shifts_x_recovers","Verif.GpuShifts.shifts_x_gpu_recovers","Verif.GpuShifts.shifts_y_recovers_partial","Verif.GpuShifts.shifts_y_gpu_recovers_partial","Verif.GpuShifts.normalize2_roll","Verif.GpuShifts.shifts_x_norm_recovers","Verif.GpuShifts.exLine_shift","Verif.GpuShifts.exNorm_vals","Verif.LocalShifts.find_local_shifts_y_norm_refuted")
c("C73","partial","Translated windows are recovered with norm=False; with the default norm=True the claim is false of the code (global_norm_refuted: the images are divided by row and column sums that depend on what lies outside the windows) and holds for images rolled around (global_shift_norm_recovers). Points of the first row/column of the announced box are refused (get_input_list_box_refuted); points outside are dropped silently (get_input_list).",N+"global_shift_recovers_partial",N+"point_shift",N+"get_input_list",N+"get_input_list_box_refuted",N+"exWindow",N+"global_shift_norm_recovers",N+"global_norm_refuted",N+"normImage_roll")

N="Verif.Regularization."
c("C55","partial","The property is false of the code for every width >= 2 and every alpha > 0 (two refutations). Proved: the true inverse and minimiser, the exact relation of the code's coefficients to it, invariance under constants, linearity, the per-block update for every chunking, the sorted variant, the error cases.",N+"green_inverse",N+"optimal_iff",N+"reg_coef_partial",N+"regularization_optimal_refuted",N+"regularization_mirror_refuted",N+"listCoe_affine",N+"listCoe_const",N+"regularization_blocks",N+"regularization_sorted",N+"regularization_errors")

N="Verif.Locate."
c("C56","partial","False of the code for overlaps of one slice, for slices shared by three rows, and in locate_slice_chunk for unequal overlaps (three refutations, each for all sizes). Proved otherwise.",N+"locate_rows",N+"locate_cover",N+"locate_weights_partial",N+"locate_single_overlap_refuted",N+"locate_triple_refuted",N+"locate_chunk_rows",N+"locate_chunk_partial",N+"locate_chunk_unequal_refuted",N+"locate_errors")
N="Verif.Simulation."
c("C57","partial","Flip symmetry is false for every even width and ratio in [0,1]; everything else proved.",N+"circle_mask_spec",N+"circle_mask_01",N+"circle_mask_mono",N+"circle_mask_symm_partial",N+"circle_mask_flip_refuted")
c("C58","partial","That no zero is left is false in general: fix_complete_iff gives the exact condition. Everything else proved for all tables.","Verif.GridFix.fix_keeps","Verif.GridFix.fix_origin","Verif.GridFix.fix_adjacent","Verif.GridFix.fix_filled_iff","Verif.GridFix.fix_complete_iff")
c("C59","partial","The last column can never be part of the stripe (refuted for every sinogram and position); stripes as wide as the sinogram fail. Otherwise proved for all types, strengths and random numbers.",N+"add_stripe_local",N+"add_stripe_values",N+"add_stripe_partial_type",N+"add_stripe_last_refuted",N+"add_stripe_whole")
c("C60","partial","False for an image of zeros with global_max=None.",N+"xray_given",N+"xray_default",N+"xray_zero_refuted")
c("C74","proved","Exact arithmetic; images narrower than 131072 pixels (int16).",N+"background_spec")
c("C75","proved","Exact arithmetic.",N+"elliptic_spec",N+"rectangular_spec",N+"masks_inside",N+"masks_half_turn",N+"masks_translate",N+"masks_quarter_turn",N+"masks_circle_mono")
c("C76","proved","Exact arithmetic.",N+"spiral_spec",N+"spiral_radius",N+"spiral_fits")

N="Verif.Calibration."
c("C77","proved","Exact arithmetic. (For exactly five points it would be false: the vector used is then orthogonal to the true conic, fit_five_points_refuted.)",N+"fit_ellipse",N+"fit_circle",N+"fit_range",N+"fit_length_error",N+"svd_exists",N+"fit_five_points_refuted")
c("C78","partial","Everything proved but the tilt of the ellipse method, which is arctan(minor/major) instead of arcsin: smaller than the tilt for every tilt in (0,90) degrees. The law assumed of gaussian_filter1d is proved of scipy's filter (gaussianList_isSmooth).",N+"tilt_roll_errors",N+"tilt_roll_collinear",N+"tilt_roll_ellipse",N+"tilt_roll_range",N+"tilt_underestimated","Verif.Ndi.gaussianList_isSmooth")
N="Verif.Blobs."
c("C79","partial","True if no region enters the bounding rectangle of another; false otherwise (both a large region partly kept and a small one dropped).",N+"select_zinger_spec",N+"select_zinger_partial",N+"select_zinger_big",N+"select_zinger_label",N+"select_zinger_refuted")
c("C80","partial","False for several dots of different sizes with size_opt mean or median (nan). Otherwise proved: one dot per image; several dots of one size (every size_opt); several dots whose largest (smallest) one differs by more than 1 percent, with size_opt max (min), if the bounding boxes do not reach into other dots. Filters, automatic threshold and hole filling are parameters.",N+"dot_size_spec",N+"binarize_error",N+"binarize_spec",N+"binarize_contrast",N+"distance_symm",N+"distance_one_dot",N+"centroid_moved",N+"distance_mean_refuted",N+"distance_extreme",N+"distance_one_size")

N="Verif.Stripe."
c("C81","proved","exact arithmetic; polyfit is the least-squares line (fit_optimal); the unit claim holds whenever both calls succeed (the noise floor 1e-5 is absolute)",N+"detect_perm",N+"detect_affine",N+"detect_interval",N+"detect_snr",N+"detect_bright",N+"detect_dark",N+"detect_rejects_flat",N+"detect_short",N+"detect_errors",N+"fit_optimal")
c("C82","partial","False of the code: refuted by a five-value list; proved for evenly spread data with stripes.",N+"polarity_refuted",N+"polarity_partial")
c("C83","partial","Proved except for the kind option: cubic and quintic give the same result (degree 2). Splines of degree > 1 are a parameter.",N+"interpolation_columns",N+"interpolation_linear",N+"interpolation_succeeds",N+"interpolation_error",N+"interpolation_factor_ne_zero",N+"kind_refuted")
c("C84","partial","False of the code for a column of zeros that is not detected; proved if the trimmed column means are non-zero.",N+"large_factor_refuted",N+"large_factor_partial")
c("C85","proved","median filters are parameters (the flat-row theorem uses that they keep constants)",N+"blob_mask_spec",N+"blob_mask_flat_row")

N="Verif.Wavelet."
c("C86","proved","The method is any function that may raise.",N+"check_level_spec",N+"apply_filter_spec",N+"apply_filter_errors")
c("C87","partial","The claim is false for images with a side below 16 (level_too_small); proved for all others.",N+"level_used",N+"level_too_small")
c("C88","partial","False of the code: the ignored level stays zero in the caller's data.",N+"reconstruct_ignores",N+"reconstruct_refuted",N+"reconstruct_partial")
N="Verif.Polar."
c("C89","partial","False of the code: radii come back multiplied by wp/(wp-1). Interpolation error is not bounded.",N+"polar_coordinates_inside",N+"forward_exact",N+"round_trip_partial",N+"round_trip_refuted",N+"transform_slice_spec")
c("C90","proved","",N+"regularization_filter_spec",N+"regularization_filter_linear",N+"regularization_filter_axis",N+"regularization_filter_error")
c("C91","proved","Order-1 interpolation (the default).",N+"window_central_column",N+"window_radial",N+"window_halves")

N="Verif.StripeFilters."
c("C92","proved","Exact arithmetic; 1D filter options are a parameter.",N+"filtering_stripe_free",N+"filtering_keeps_sharp",N+"filtering2d_change",N+"filtering2d_constant")
c("C93","partial","Constants: proved for even sizes, false of the code for odd widths (fitting_constant_refuted). Scaling proved with and without sorting. The general theorems hold for any filter with the stated properties; they are instantiated with the Savitzky-Golay filter of C167. With sorting the argsort is assumed to look at the order only (OrderOnly, met by merge sort).",N+"fitting_scale_savgol",N+"fitting_constant_savgol_partial",N+"fitting_constant_savgol_refuted",N+"fitting_scale_sorted",N+"orderOnly_exists",N+"fitting_constant_refuted",N+"fit_length_spec",N+"fit_length_errors",N+"fitting_constant_partial",N+"fitting_scale")
c("C94","partial","False of the code: stripe-free sinograms raise ValueError.",N+"remove_all_refuted",N+"remove_all_partial",N+"remove_all_chain")
c("C95","partial","False for negative profiles and even widths; proved for odd widths and non-negative profiles (with or without sorting), with the exact gain for constants in even sizes.",N+"fft_stripe_free_partial",N+"fft_constant_gain",N+"fft_stripe_free_refuted",N+"fft_nonneg")
c("C96","proved","General theorem for any transform that reconstructs perfectly and gives zero vertical details for stripe-free images (GoodWavelet); instantiated with the filter banks of PyWavelets (pywt_stripe_free; haar and db2 meet the hypothesis, C169).",N+"wavelet_sizes",N+"wavelet_stripe_free","Verif.Pywt.pywt_stripe_free","Verif.Pywt.pywt_good")
c("C97","partial","Constant images: with the wavelet method (at least 14 x 14) proved; with the FFT method and odd widths true for non-negative values, false for negative ones.",N+"ring_shape",N+"ring_wavelet_constant","Verif.Pywt.pywt_ring_constant",N+"ring_fft_partial")

N="Verif.Stacks."
c("C98","partial","Proved for files whose keys form one block each at a common offset; false of the code otherwise (gap, shift), for a file without flats and for single-image blocks.",N+"dls_spec_partial",N+"dls_fix",N+"zeroToMean3_spec",N+"dls_ok",N+"dls_index_sound",N+"use_count_spec",N+"dls_manual",N+"dls_nokey",N+"dls_single_refuted",N+"dls_missing_refuted",N+"dls_gap_refuted",N+"dls_shift_refuted")
c("C99","proved","2D flat and dark fields, and image heights other than 3 (the field reader takes any first axis of length 3 as a stack to average, C13).",N+"image_stack_spec",N+"crop_box_spec",N+"stacks_agree",N+"tif_agree",N+"tif_stack_all",N+"zeroToMean3_spec")
c("C100","partial","False of the code for empty slices (ValueError), numpy integers (TypeError) and folders with only .TIF names (FileNotFoundError).",N+"emu_spec_partial",N+"slice_indices_inside",N+"slice_spec",N+"emu_empty_slice_refuted",N+"emu_numpy_index_refuted",N+"emu_init_spec")

N="Verif.Hdf."
c("C101","partial","False of the code: datasets inside groups are listed twice; non-empty groups and links at the top level are not listed. Everything else is proved.",N+"info_spec",N+"find_spec",N+"load_spec",N+"info_twice_refuted")
c("C102","proved","A dangling link and an empty group print alike (tree_link_group).",N+"tree_lines",N+"tree_injective",N+"tree_paths",N+"tree_count",N+"tree_marks",N+"tree_link_group",N+"tree_code")
c("C103","partial","False of the code: siblings whose name continues the main key are refused, a refused call truncates the file, foreign extensions are replaced.",N+"stream_spec_partial",N+"stream_sibling_refuted",N+"stream_old_lost",N+"stream_refused_truncates",N+"stream_name_spec")

N="Verif.Recon."
c("C104","partial","False of the code: with integer data, apply_log=False and one core the filtered values are truncated to integers, so the result depends on ncore. The mirror property is proved for every filter name and symmetric pad modes (no window given by the caller), the rotation with mask for odd widths.",N+"fbp_error_iff",N+"fbp_spec",N+"fbp_closed_form",N+"fbp_chunk_eq_slices",N+"fbp_outside_zero",N+"fbp_linear",N+"fbp_rotate",N+"fbp_permute",N+"fbp_mirror",N+"fbp_mirror_filters",N+"fbp_int_one_core",N+"fbp_ncore_refuted",N+"recon_defaults",N+"slice_spec")
c("C105","partial","False of the code: a caller's window that does not fit is replaced by different windows for a slice and for a chunk.",N+"bpf_error_iff",N+"bpf_spec",N+"bpf_chunk_eq_slices_partial",N+"bpf_outside_zero",N+"bpf_linear",N+"bpf_constant",N+"circ_gain",N+"bpf_window_refuted",N+"circ_convolution",N+"circ_identity",N+"recon_defaults")
c("C106","partial","False of the code for even widths: the window is displaced by half a sample.",N+"window_low_pass",N+"window_frequency_partial",N+"window_even_refuted")

N="Verif.Dfi."
c("C107","proved","Exact real arithmetic.",N+"mapping_spec",N+"mapping_spec_all",N+"mapping_range",N+"mapping_central_row",N+"mapping_central_column")
c("C108","partial","False of the code: descending angles turn the object by twice the start angle. The interpolation is exact at sample positions (dfiSpline_exact, for scipy's splines); and a scan over 360 degrees is folded onto wrong rows unless the angles run from 0 to 360 degrees inclusive in an odd number of rows (neighbouring projections are mixed). Start angles that are not multiples of the step need interpolation between rows.","Verif.Ndi.dfiSpline_exact",N+"dfi_angles_ascending",N+"dfi_angles_descending",N+"dfi_angles_descending_partial",N+"dfi_angles_descending_refuted",N+"dfi_angles_fold",N+"dfi_angles_even_refuted",N+"dfi_angles_open_refuted")
c("C109","partial","The interpolation is a parameter, exact at samples or linear where needed (proved of scipy's splines: dfiSpline_exact, dfiSpline_linear); the sums are those of the image before cropping to the caller's width, and of the returned image without padding; dfi_padded describes padding, logarithm, crop and mask. False of the code for a chunk of a single row.","Verif.Ndi.dfiSpline_exact","Verif.Ndi.dfiSpline_linear",N+"dfi_error_iff",N+"dfi_spec",N+"dfi_chunk_eq_slices",N+"dfi_outside_zero",N+"dfi_linear",N+"dfi_column_sums",N+"dfi_column_sums_unfiltered",N+"dfi_row_sums",N+"dfi_total",N+"dfi_projection",N+"dfi_padded",N+"dfi_one_row_refuted")

N="Verif.SliceMetric."
c("C110","partial","False of the code near the detector edge: with the default step and radius a search within two pixels of an edge always raises. Exact real arithmetic; the scale invariance is proved for reconstructions that scale, instantiated with filtered back-projection without logarithm at zoom 1 and, in C162, with every method and zoom.",N+"search_opt_iff",N+"find_center_iff",N+"find_center_bounds",N+"find_center_edge",N+"find_center_edge_refuted",N+"find_center_affine",N+"find_center_scale_partial",N+"fbp_on_detector",N+"entropy_perm",N+"entropy_spec",N+"sharpness_affine",N+"sharpness_zero_iff",N+"toy_search")
N="Verif.VisualCenter."
c("C111","partial","False of the code: the last column as start gives no candidate, a zoom below one half can put a centre outside the zoomed detector.",N+"visual_candidates_inside",N+"visual_candidates",N+"visual_names_distinct",N+"visual_name_close",N+"visual_slices_spec",N+"visual_sinograms_spec",N+"visual_zoom_inside_partial",N+"visual_last_column_refuted",N+"visual_zoom_refuted")
c("C112","partial","False of the code: with the default zoom 0.5 the label is off by half a pixel in the middle of 2560 columns; the mirrored half is blurred. Proved: the exact condition for the zoom, mirror image for rows linear in the position, the blur at pixel and half-pixel centres.",N+"zoom_position",N+"zoom_axis_partial",N+"zoom_axis_refuted",N+"visual_sinograms_spec",N+"full_sinogram_top",N+"full_sinogram_mirror_partial",N+"full_sinogram_blur",N+"full_sinogram_mirror_refuted")

N="Verif.GpuShifts."
c("C113","partial","Exact agreement in two directions is false at the edge of the searched area (gpu_2d_edge_refuted). Exact real arithmetic (the kernels use float32); 2D inputs in two-direction mode are the subject of C161; norm_global in one direction is the subject of C165; margin 0 excluded (the CPU search then has an empty template).",N+"gpu_1d_x",N+"gpu_1d_y",N+"shifts_x",N+"hybrid_2d_eq_cpu",N+"gpu_2d_close_partial",N+"gpu_2d_edge_refuted",N+"scan2_spec",N+"peak2_interior")

N="Verif.PhaseFft."
c("C114","proved","Exact arithmetic. Invariance under whole turns of the iterative version is for weight map None (with weights the first step multiplies the wrapped phase by the weight, so it is not claimed). A weight map is assumed to have the shape of the image; a caller's window with zeros divides by zero (inf in numpy, 0 here).",N+"unwrap_fft_same_phase",N+"unwrap_fft_symmetric",N+"unwrap_fft_constant",N+"unwrap_fft_ok_iff",N+"unwrap_iterative_same_phase",N+"unwrap_iterative_symmetric")
c("C115","partial","False of the code: rows and columns are treated alike only for square images (fc_isotropic_iff: vertical slopes are scaled by width/height otherwise), and the tilt of the surface is lost (fc_planes_refuted; the docstring only says the mean is). Everything else is proved; the cast to float32 is not modelled.",N+"fc_surface_spec",N+"fc_correction",N+"fc_linear",N+"fc_axis_gradients",N+"sinMode_primitive",N+"fc_mirror",N+"fc_isotropic_iff",N+"fc_constant_gradients",N+"fc_planes_refuted")

N="Verif.VerticalDriver."
c("C116","partial","Proved for odd widths; false of the code for even widths, where the vertical slice lies half a pixel off the pixel grid of the horizontal slices (vertical_section_even_refuted). Exact arithmetic; padding modes that copy samples; proj_stop within the stack.",N+"vertical_section_fbp",N+"vertical_section_raw",N+"vertical_section_even_refuted")
c("C117","proved","Exact arithmetic; natural crop margins; proj_stop within the stack; crossing slices for ramp_filter other than 'after' and without mask (a filter along the slice mixes points).",N+"vertical_single_ok",N+"vertical_single_value",N+"vertical_multiple_ok",N+"vertical_multiple_value",N+"vertical_different_ok",N+"vertical_different_value",N+"vertical_single_unique",N+"vertical_multiple_eq_single",N+"vertical_different_eq_single",N+"vertical_slices_cross",N+"vertical_slices_cross_right",N+"vertical_mask",N+"vertical_values")

N="Verif.Helical."
c("C118","partial","Success is proved when the stage moves at least one pixel per projection (helical_full_coarse), and characterised exactly otherwise (helical_full_ok_iff); false of the code for fine steps: with at most a third of a pixel per projection every call fails (helical_full_fine_fails, helical_full_refuted). Rows, angles and completeness are proved for every call that succeeds. Exact arithmetic, no blob mask.",N+"helical_full_ok_iff",N+"helical_full_correct",N+"helical_full_complete",N+"helical_full_coarse",N+"helical_full_fine_fails",N+"helical_full_refuted")

N="Verif.StackShift."
c("C119","partial","The last part is false of the code: the sample shifts are measured between images moved by their reference shifts but applied to the unmoved ones, so the object of image k stays displaced by s_k - s_0 (sample_alignment_offset, sample_alignment_refuted for all speckles and displacements); proved when all reference shifts are equal. ndimage.shift is a parameter, exact for whole pixels (proved of scipy's cubic splines, shift3_exact and shiftReflect_exact); fractional shifts not covered.","Verif.Ndi.shift3_exact","Verif.Ndi.shiftReflect_exact",N+"find_stack_shifts",N+"find_stack_shifts_recovers",N+"align_stacks",N+"align_scan",N+"align_scan_pairs",N+"find_sample_shifts",N+"sample_alignment_offset",N+"sample_alignment_partial",N+"sample_alignment_refuted",N+"exShift_exact")

N="Verif.SpeckleTracking."
c("C120","proved","Exact arithmetic. With norm=True the windows that have to be translated are those of the normalised images.",N+"shifts2d_refused",N+"shifts2d_schedule",N+"shifts2d_spec",N+"shifts2d_recovers")
c("C121","partial","False of the code for win_size >= 6 (the default is 7): the mirrored border is margin + 2 wide, the unsearched one margin + win_size//2, so a frame of zero shifts stays in the images whatever they show (tracking_frame_refuted, tracking_frame_cpu_refuted); proved for win_size <= 5.",N+"tracking_spec",N+"refill_spec",N+"tracking_found_partial",N+"tracking_frame_refuted",N+"tracking_frame_cpu_refuted")

N="Verif.Quality."
c("C122","partial","Exact arithmetic. The last sentence is false of the code: the differences of the padded image are cut at the wrong end, so the bottom right pixel never enters the map (quality_corner_refuted); pixel_matters_iff shows it is the only one.",N+"quality_error",N+"quality_range",N+"quality_wrap_invariant",N+"quality_transpose",N+"quality_zero_iff",N+"quality_plane",N+"quality_size_one",N+"pixel_matters_iff",N+"quality_corner_refuted")
c("C123","partial","Exact arithmetic; ndi.zoom is a parameter that keeps the requested length and commutes with affine maps (IsZoom, proved of scipy's cubic spline: zoomList_isZoom). False of the code for maps whose longer side has 4 pixels (mask_four_refuted: one point is left for the line fit, and a constant negative map is marked everywhere); mask_affine_partial and mask_constant_partial cover all other sizes.",N+"mask_error",N+"mask_spec",N+"mask_snr_mono",N+"mask_affine_partial",N+"mask_perm",N+"mask_constant_partial",N+"mask_four_refuted",N+"linZoom_isZoom","Verif.Ndi.zoomList_isZoom","Verif.Ndi.mask_affine_ndi_partial")
c("C124","partial","The Fourier version keeps constants only for even sizes (fft_constant_partial); for odd sizes it adds structure to constant images (fft_constant_refuted). ndi.zoom and savgol_filter are parameters that commute with affine maps (proved of scipy's functions: zoomList_isZoom, savgolList_isSavgol; threshold_affine_ndi).",N+"normalize_features",N+"normalize_constant",N+"normalize_scale",N+"normalize_positive",N+"fft_constant_partial",N+"fft_scale",N+"fft_constant_refuted",N+"threshold_error",N+"threshold_spec",N+"threshold_affine","Verif.Ndi.threshold_affine_ndi","Verif.Ndi.savgolList_isSavgol",N+"threshold_perm",N+"binarize_affine")

N="Verif.ForwardProj."
c("C125","partial","Exact arithmetic; spline interpolation is a parameter (Exact, Linear; proved of scipy's quintic spline, mapping5_exact and mapping5_linear). The mirror axis is the middle of the row only for odd widths (centre_odd_partial); for even widths it is the pixel width/2, half a pixel off (centre_refuted). The sum of the unpadded rows is kept for odd sizes at every angle; for even sizes it is not (mass_refuted): at angle 0 the last row of the image counts twice (sinogram_mass_even), and with padding by zeros the row for pi/2 lacks the first row (sinogram_mass_padded_even).",N+"sinogram_error",N+"sinogram_axes",N+"sinogram_sums",N+"sinogram_edge",N+"sinogram_half_turn",N+"sinogram_mass",N+"sinogram_linear","Verif.Ndi.mapping5_exact","Verif.Ndi.mapping5_linear","Verif.Ndi.sinogram_sums_ndi","Verif.Ndi.sinogram_mass_ndi","Verif.Ndi.sinogram_linear_ndi",N+"centre_odd_partial",N+"centre_refuted",N+"nearest_exact",N+"sinogram_mass_even",N+"sinogram_mass_padded_even",N+"mass_refuted")

N="Verif.FlatOptions."
c("C126","partial","Exact arithmetic; the functions are parameters that keep the shape (KeepShape) and do not change their argument in place. The last sentence is proved for flat fields that nowhere equal the dark field (stack_eq_single); for flat fields with zeros it is false of the code, which replaces them by the mean of the whole flat image or of the row (stack_refuted); all other pixels agree (stack_pixels_partial). broadcast_row: a function that returns a single row is silently repeated.",N+"divide_flatField",N+"options_none",N+"options_order",N+"option_meaning",N+"stack_eq_single",N+"stack_pixels_partial",N+"stack_refuted",N+"broadcast_row")

N="Verif.Convert."
c("C127","partial","Exact pixel values; patterns with * and ? only. The round trip holds up to 100000 slices (round_trip_partial) and is false beyond, where names no longer sort by number (round_trip_refuted). A crop larger than the image wraps around instead of leaving nothing (extract_crop_refuted). Later images of a single row or column are not refused but repeated (convert_thin_refuted).",N+"pattern_meaning",N+"find_file_spec",N+"convert_spec",N+"convert_error",N+"convert_thin_refuted",N+"convert_perm",N+"round_trip_partial",N+"round_trip_refuted",N+"extract_crop_partial",N+"extract_crop_refuted",N+"extract_axes_partial",N+"fnmatch_any")
c("C128","partial","Exact arithmetic. Colour images that have no more rows or columns than channels are averaged along the wrong axis (load_colour_refuted); larger ones are handled (load_colour_partial).",N+"load_flat",N+"load_colour_partial",N+"load_grey",N+"load_colour_refuted",N+"bytes_error",N+"bytes_spec",N+"bytes_affine")

N="Verif.External."
c("C129","proved","tomopy.recon is a parameter (one sinogram to one square image). Exact arithmetic.",N+"angle_spec",N+"gridrec_error_iff",N+"gridrec_spec",N+"gridrec_chunk_eq_slices",N+"gridrec_outside_zero")
c("C130","partial","The astra algorithm is a parameter; centring is proved for shifts by whole columns, with scipy's spline in astra_center_ndi. False of the code: without a GPU some names that are not methods are accepted, among them ART_CUDA and F_CUDABP (method_refuted).",N+"angle_spec",N+"method_spec",N+"method_refuted",N+"astra_error_iff",N+"astra_spec",N+"astra_chunk_eq_slices",N+"astra_center","Verif.Ndi.shiftNearest_cols","Verif.Ndi.astra_center_ndi")

N="Verif.CenterMetric."
c("C131","proved","Exact arithmetic: float64 rounding of the slope before the ceiling is not modelled.",N+"mask_spec",N+"mask_bands",N+"mask_line",N+"mask_properties")
c("C132","partial","ndi.shift and ndi.gaussian_filter are parameters with the laws IsShift, IsSmooth (proved of scipy's cubic spline shift and Gaussian filter, cubicShift_isShift and gaussian_isSmooth; find_*_ndi are without these assumptions). Exact arithmetic, metrics not rounded to float32. Missing: reversal of more than 1000 projections when the down-sampling leaves some out; mirroring with dsp=True is proved for detectors of at most 1000 columns when the best candidate is among those of both calls (find_mirror_dsp_partial: the fine search is centred half a pixel to the right); with several best candidates the claim is false of the code (find_mirror_refuted).",N+"find_mirror_dsp_partial",N+"find_mirror_refuted",N+"metric_affine",N+"metric_reverse",N+"metric_mirror",N+"search_affine",N+"search_reverse",N+"search_mirror",N+"find_affine",N+"find_reverse_partial",N+"find_mirror_partial",N+"find_range",N+"linShift_isShift",N+"mean3_isSmooth","Verif.Ndi.cubicShift_int","Verif.Ndi.cubicShift_isShift","Verif.Ndi.gaussian_isSmooth","Verif.Ndi.find_affine_ndi","Verif.Ndi.find_reverse_ndi_partial","Verif.Ndi.find_mirror_ndi_partial")

N="Verif.Detect."
c("C133","proved","gaussian_filter is a parameter that keeps the size and commutes with a positive factor (IsGauss; proved of scipy's filter, gaussian_isGauss). Exact arithmetic.",N+"detect_affine",N+"detect_mirror",N+"detect_reverse",N+"detect_start",N+"detect_turn",N+"detect_accepted",N+"detect_spec",N+"decide_spec","Verif.Ndi.gaussian_isGauss")
N="Verif.WinPath."
c("C134","partial","False of the code for names that start with a digit 0-7 (correct_literal_refuted); names starting with x, N, u, U or a quote are outside as well (correct_literal_partial).",N+"correct_literal_partial",N+"correct_literal_refuted",N+"correct_raw",N+"get_path_spec")
N="Verif.InputTypes."
c("C135","partial","False of the code for folders with a dot in the name (folder_name_refuted), which shape_forms_partial excludes; .hdf5 is refused although open_hdf_stream writes it (output_spec).",N+"ext_spec",N+"shape_forms_partial",N+"folder_name_refuted",N+"output_spec",N+"shape_refused")
c("C136","proved","load_image is a parameter; np.asarray of images of different sizes raises.",N+"load_multiple_spec",N+"load_multiple_indep",N+"load_multiple_ok_iff")

N="Verif.UmpaFull."
c("C137","partial","False of the code for some chunk sizes: chunk_size=1 always, and the default 100 at the minimum height, raise IndexError (umpa_chunk_refuted); umpa_full covers all others. Exact arithmetic; scipy correlate by its definition.",N+"umpa_full",N+"umpa_full_best",N+"exUm_wellPosed",N+"umpa_chunk_independent",N+"umpa_errors",N+"umpa_chunk_refuted",N+"window_good",N+"chunkLoop_index")
c("C138","proved","Exact arithmetic (the kernel uses float32). At the edge of the searched area the two differ by up to half a pixel, as stated.",N+"umpa_gpu_close",N+"umpa_recovers",N+"gpuPixel_inner",N+"gpuPixel_edge")
c("C139","proved","Exact arithmetic. method poly_fit: the least-squares fit is a parameter whose coefficients scale with the data.",N+"umpa_scaled",N+"locatePeak_scale",N+"terms_scaled")

N="Verif.GlobalGpu."
c("C140","proved","Exact arithmetic (the kernel uses float32).",N+"global_gpu_close",N+"global_gpu_recovers",N+"global_gpu_errors",N+"global_gpu_fallback",N+"global_value_lipschitz",N+"global_value_mono",N+"gpuPoint_cases",N+"allInside_of_shift")

N="Verif.Phantom."
c("C141","partial","Binary image proved for 26 <= size < 1616, everything inside for size < 2178; refuted beyond (overlap at 1616, lines outside the image at 2420).",N+"lineTarget_small",N+"lineTarget_spec",N+"lineTarget_binary",N+"lineTarget_symm",N+"right_inside",N+"left_inside",N+"inked_in_disc",N+"bars_spec",N+"lineTarget_not_binary",N+"left_outside")
c("C142","partial","Proved for every size >= 2; the range is refuted for size 1 (face_one). Exact arithmetic.",N+"face_mirror",N+"face_spec",N+"face_one")
c("C143","proved","Exact arithmetic; the random numbers are arbitrary reals.",N+"addNoise_spec",N+"addNoise_nonneg",N+"addNoise_zero",N+"addNoise_scale")

N="Verif.Writer."
c("C144","proved","Tif folder to another tif folder, 2D images, exact pixel values; the range for rescaling may be given or computed. Reslicing: C147.",N+"restart",N+"stop_frame",N+"history_keeps",N+"restart_in_place_refuted")
c("C145","partial","Contents and order proved; that nothing else is listed holds exactly if the folder had no other tif file; stale slices after overwrite=True refute the claim in general.",N+"rescale_output",N+"downsample_output",N+"stale_slices_refuted")
c("C146","partial","Proved for rescale_dataset on folders with algotom's own slice names; refuted for other names and for downsample_dataset.",N+"rescale_in_place",N+"in_place_names_refuted",N+"downsample_in_place_refuted")

N="Verif.ResliceRun."
c("C147","proved","Tif input; tif or hdf output; rotation and rescaling are parameters. The input folder is neither the output folder nor in a folder the call removes; in place the claim is refuted.",N+"restart",N+"stop_frame",N+"restart_in_place_refuted")
c("C148","partial","Proved for at least two images and two output slices, up to 100000 slices for tif output; hdf output removes the folder named like the output (C44). Refuted for one image: the call raises and leaves its folders.",N+"reslice_tif",N+"reslice_hdf",N+"below_iff",N+"single_leaves_refuted")

N="Verif.Script."
c("C149","proved","rescale, downsample and reslice from tif folders, and both converters. The condition on the order of the folders is needed (ordering_refuted).",N+"script_restart",N+"script_overwrite",N+"write_is_call",N+"ordering_refuted")

N="Verif.VerticalSearch."
c("C150","partial","False in three ways: candidates past stop may be off the detector, names collide for steps below 0.005, right of the middle of the detector the mask keeps columns outside the field of view of the later candidates.",N+"visual_files",N+"visual_schedule_free",N+"prepare_get",N+"mask_eq",N+"mask_left",N+"names_distinct",N+"mask_right_refuted",N+"visual_stop_refuted",N+"names_collide_refuted")
c("C151","proved","Over the reals; the Gaussian filter is a parameter. Integer candidates: C49.",N+"search_best",N+"metric_values",N+"search_schedule_free",N+"search_error")
c("C152","proved","Over the reals; scipy.fft as the DFT.",N+"autocorrelation_eq",N+"autocorrelation_laws",N+"autocorrelation_perm",N+"autocorrelation_error")

N="Verif.ConvertRun."
c("C153","proved","2D images; hdf file with one dataset. The condition on the name of the output is needed (convert_in_place_refuted).",N+"convert_dataset",N+"convert_frame",N+"convert_restart",N+"convert_in_place_refuted")
c("C154","proved","Output folder and names apart from the input file.",N+"extract_folder",N+"extract_error",N+"extract_frame",N+"extract_restart",N+"disk_round_trip")

N="Verif.Overlap."
c("C155","partial","False of images with a constant window (constant_window_refuted); with side=None denoise and norm are exchanged (find_overlap_auto, C22); find_center_projection is exact up to its half-pixel convention, on the side of larger curvature. Exact real arithmetic; ndi.gaussian_filter is a parameter.",N+"corr_spec",N+"corr_affine",N+"metric_spec",N+"metric_zero",N+"curvature_zero",N+"curvature_nan",N+"find_overlap_exact",N+"find_center_360_exact",N+"find_center_360_mirror",N+"overlap_schedule_free",N+"overlap_serial_total",N+"find_overlap_gain",N+"find_overlap_auto",N+"find_overlap_multiple_spec",N+"find_center_projection_exact_partial",N+"constant_window_refuted")
c("C156","partial","False of the code for a start row below the middle chunk (refuted).",N+"chunk_rows",N+"chunk_height_spec",N+"chunk_middle",N+"chunk_exact",N+"projection_rows_only",N+"chunk_start_partial",N+"chunk_start_refuted")

N="Verif.Wedge180."
c("C157","proved","Exact real arithmetic; scipy.ndimage.shift is an interpolation parameter (exact and constant-preserving, proved of scipy's cubic spline: dfiSpline_exact, dfiSpline_keeps); a half-integer shift is outside the claim on mirroring.",N+"to360_top",N+"to360_mirror",N+"to360_ideal",N+"to360_const",N+"wedge_errors",N+"wedge_refused",N+"wedge_ones",N+"wedge_const",N+"wedge_linear",N+"wedge_180","Verif.Ndi.dfiSpline_keeps")

N="Verif.JoinMany."
c("C158","proved","Exact arithmetic; layout for side 1 and whole gaps; success and width for all non-negative joint widths and sides.",N+"join_many_layout",N+"join_many_ok",N+"join_many_total",N+"factor_meets",N+"join_width",N+"join_whole")

N="Verif.PhaseCorr."
c("C159","proved","Exact arithmetic, fft2/ifft2 as the transforms they define; whole-pixel displacements. Broadcasting of images with one row or column counts as an error in the model.",N+"find_shift_exact",N+"noRepeat_of_peak",N+"find_shift_bounded",N+"find_shift_gain",N+"find_shift_swap",N+"find_shift_error")
c("C160","proved","As C159.",N+"find_center_exact")

N="Verif.GpuImage."
c("C161","partial","Exact arithmetic. False of the code in two cases: norm=True normalises each chunk by its own sums, so the shifts depend on chunk_size (image_norm_refuted); an explicit chunk_size raises IndexError if it makes more chunks than searched rows, e.g. always on images of win_size + 2*margin rows (image_index_error, image_chunk_refuted). Proved for norm=False and for chunk_size=None otherwise.",N+"image_refused",N+"image_whole",N+"image_chunk_free",N+"image_close",N+"image_recovers",N+"find_local_shifts_gpu",N+"dispatch",N+"image_index_error",N+"image_chunk_refuted",N+"image_norm_refuted")

N="Verif.SliceMethod."
c("C162","partial","False of the code for names that are not documented: they are not refused but run as direct Fourier inversion (unknown_method_refuted). Exact real arithmetic; tomopy, astra and scipy's interpolation are parameters.",N+"method_used",N+"unknown_method_refuted",N+"accepted_iff",N+"image_shape",N+"on_detector",N+"visual_complete",N+"reconstruct_affine",N+"find_center_scale",N+"exE_ok")

N="Verif.Stitch."
c("C163","partial","False of the code for every fractional width and every scene with a gradient: stitch_image displaces the left part by the fraction s and the right part by nothing (misaligned by |s|, as much as without the shift), join_image displaces them by s and -2s (misaligned by 3|s|). The offsets are proved exactly; the aligned case is whole widths (C15, C17, C158).",N+"stitch_fraction",N+"join_fraction",N+"stitch_fraction_refuted",N+"join_fraction_refuted",N+"linShift_exact")

N="Verif.ParSlices."
c("C164","proved","joblib is modelled so that after a task has failed it may go on with others for any time and raise any of the exceptions.",N+"parallel_errors",N+"outcome_spec",N+"outcome_exists")

N="Verif.GpuShifts."
c("C165","partial","Proved with norm=False in one direction and with any norm in two directions (stacks on the CPU; the GPU in two directions is in C113). False with the default norm=True in one direction (global_norm_refuted): rows are then divided by sums of rows and columns, which does not commute with subtracting the minimum.",N+"global_x",N+"global_y",N+"global_gpu",N+"global_2d",N+"global_norm_refuted")

N="Verif.Correction."
c("C166","proved","Exact real arithmetic (coordinates are rounded to float32 in the code).",N+"unwarp_pixel",N+"bilinear_spec",N+"unwarp_sinogram_rows",N+"unwarp_sinogram_all",N+"unwarp_one")

N="Verif.StripeFilters."
c("C167","partial","The least-squares statement is proved for every pixel. Polynomials are reproduced where the window lies inside the line, constants everywhere; near the ends this is false of the code (fitted_ramp_refuted: with num_chunk=1 only the middle of the line is exact), because the window is mirrored. scipy's savgol_coeffs is modelled as the solution of smallest norm of its linear system.",N+"fitted_spec",N+"savgol_fit",N+"ls_exists",N+"fitted_poly_partial",N+"fitted_constant",N+"fitted_ramp_refuted")

N="Verif.StackDispatch."
c("C168","partial","False of the code for gpu='hybrid' with dim=1: dim is ignored and the search runs in two directions (hybrid_dim, hybrid_one_direction_refuted). Everything else proved; CPU and GPU in two directions differ by up to half a pixel where the best match lies at the edge of the searched area (C113). Exact arithmetic.",
  N+"no_gpu",N+"one_direction",N+"hybrid",N+"two_directions_partial",N+"hybrid_dim",N+"hybrid_one_direction_refuted")

N="Verif.Pywt."
c("C169","partial","The values come back for every size; the shape does not for odd sides, which come back one pixel longer (reconstruct_shape says exactly when, reconstruct_shape_refuted gives a case). PyWavelets (mode symmetric) is modelled from its documentation, with exact real arithmetic; hypothesis on the filters met by haar and db2 (haar_good, db2_good).",
  N+"decompose_reconstruct",N+"reconstruct_shape",N+"reconstruct_shape_refuted",N+"decompose_constant",N+"ignore_complement",N+"haar_good",N+"db2_good")

N="Verif.StripeFilters."
c("C170","partial","True of ten methods for all inputs. False of remove_stripe_based_interpolation (norm=True) if a column has zero trimmed mean: the zero is replaced by 1 before dividing, so the result scales with the square of the factor; false of remove_zinger if the neighbours of a pixel have zero mean, for the same reason. Both are proved for data without such zeros, and refuted with them. Smoothing filters enter as homogeneous operators (proved for the median filter, the Gaussian line filter and PyWavelets' transforms); the argsort depends on the order only. Fitting is C93.",
  N+"sorting_unit",N+"filtering_unit",N+"filtering2d_unit",N+"normalization_unit",N+"large_unit",N+"dead_unit",N+"all_unit",N+"fft_unit",N+"wavelet_unit","Verif.Pywt.pywt_unit",N+"median_homog",N+"signFilterLine_homog",N+"interpolation_unit_partial",N+"interpolation_zero_mean",N+"interpolation_unit_refuted",N+"zinger_unit_partial",N+"zinger_unit_refuted")

N="Verif.StripeFilters."
c("C171","partial","Proved for every column without repeated values (interpolation and unsorted normalization: for every column). False with repeated values, for whatever sorting algorithm: sorting_order_refuted. Smoothing filters, wavelets and the spline are parameters of which only the shape is used.",
  N+"sorted_order_free",N+"sorting_order",N+"fft_order",N+"wavelet_order",N+"normalization_sort_order",N+"fitting_order",N+"normalization_order",N+"large_order",N+"interpolation_order",N+"sorting_order_refuted")

N="Verif.StripeFilters."
c("C172","partial","Proved for median filters of odd size (and every smoothing filter that treats left and right alike); false of the code for an even window size, whatever the sorting algorithm: sorting_mirror_refuted. The FFT-based method treats left and right alike if the number of columns or of projections is odd (fft_mirror_partial, v at most half the padded height), and not otherwise (fft_mirror_refuted, 4 x 4). The sorting algorithm depends on the values of a column only (as numpy's does). Splines of degree above 1, the 1D smoothing filters and the choice of zinger clusters are parameters that treat left and right alike.",
  N+"sorting_mirror",N+"normalization_mirror",N+"large_mirror",N+"dead_mirror",N+"all_mirror",N+"interpolation_mirror",N+"zinger_mirror",N+"median_mirror",N+"medianLine_mirror",N+"sorting_mirror_refuted",N+"filtering_mirror",N+"fft_mirror_partial",N+"fft_mirror_refuted")

N="Verif.StripeFilters."
c("C173","proved","Real numbers instead of float32; the sorting algorithm is any one that returns a sorting permutation. Columns with repeated values are excluded in the statement: there the order of ties is the algorithm's choice.",
  N+"sorting_increasing",N+"sorting_decreasing",N+"sorting_log")

N="Verif.StripeFilters."
c("C174","partial","Refuted for filtering with sorting and an odd number of projections (filtering_offset_refuted: three projections, every sigma and sorting algorithm); proved for an even number; the 2D filtering and sorting method is proved for even numbers of projections and columns. The smoothing filter is any filter that commutes with offsets of lines; this is proved for the median and scipy's Gaussian filter. The FFT-based method takes a modulus and is not included; two-dimensional median windows (dim=2) are not included. Real numbers instead of float32.",
  N+"sorting_offset",N+"filtering_profile",N+"filtering_offset_partial",N+"filtering_offset_refuted",N+"normalization_profile",N+"normalization_offset",
  N+"regularization_profile",N+"regularization_offset",N+"regularization_factor",N+"wavelet_profile",N+"wavelet_offset",N+"median_rowFilter",N+"gauss_lineFilter",N+"twod_offset_partial",N+"regularization_factor_sorted")

N="Verif.FlatOptions."
c("C175","proved","Exact arithmetic; floating-point arrays in the gain part (the default ratio is 1.0). The sum of flat minus dark must not vanish (flat_field_gain_balanced).",N+"flat_field_gain",N+"flat_field_rearrange_image",N+"flat_field_rearrange_sinogram",N+"flat_field_rearrange_stack",N+"flat_field_gain_balanced")

N="Verif.Fourier."
c("C176","proved","Exact arithmetic; the window of make_fresnel_window (no window given by the caller). With negative ratios the window may vanish, which numpy turns into inf. mtf_orientation is for windows of the size of the image (a larger window is aligned with the top left corner).",N+"fresnel_overlay",N+"fresnel_exposure",N+"fresnel_orientation",N+"fresnel_rows",N+"mtf_orientation",N+"mtf_linear",N+"separate_orientation",N+"gaussian_orientation",N+"wedge_orientation")

N="Verif.Fourier."
c("C177","proved","Exact arithmetic; sino_type 360 and real masks of the right shape (errors and 180-degree sinograms: C157; shapes and constants: C34).",N+"wedge_start",N+"wedge_linear")
