{
 "claims": [
  {
   "property": "C01",
   "status": "proved",
   "theorems": [
    "Verif.ParSlices.parallel_process_slices_eq_map",
    "Verif.ParSlices.parallel_process_slices_progress"
   ],
   "note": "joblib modelled as a pool with arbitrary start/finish order; exceptions of tasks are the subject of C164"
  },
  {
   "property": "C02",
   "status": "partial",
   "theorems": [
    "Verif.BackProj.back_projection_cpu_lost_update_refuted",
    "Verif.BackProj.back_projection_cpu_schedule_partial",
    "Verif.BackProj.back_projection_cpu_one_thread_partial"
   ],
   "note": "The code violates the full claim: prange over angles with recon[y,x] += val is an unprotected read-modify-write; refuted by an explicit interleaving. Proved: any interleaving with per-pixel mutual exclusion, and any single-threaded execution, gives the angle sum."
  },
  {
   "property": "C03",
   "status": "proved",
   "theorems": [
    "Verif.BackProj.back_projection_gpu_correct",
    "Verif.BackProj.back_projection_gpu_chunk_correct",
    "Verif.BackProj.back_projection_gpu_chunk_eq_single"
   ],
   "note": ""
  },
  {
   "property": "C04",
   "status": "proved",
   "theorems": [
    "Verif.BackProj.back_projection_reads_in_range",
    "Verif.BackProj.back_projection_value_between"
   ],
   "note": "exact arithmetic; float rounding of f_pos not modelled"
  },
  {
   "property": "C05",
   "status": "proved",
   "theorems": [
    "Verif.Sorting.sort_backward_forward",
    "Verif.Sorting.sort_forward_sorted"
   ],
   "note": "argsort is any sorting permutation, possibly different per line"
  },
  {
   "property": "C06",
   "status": "proved",
   "theorems": [
    "Verif.Sorting.stripe_sorting_ranks",
    "Verif.Sorting.stripe_sorting_identity",
    "Verif.Sorting.stripe_sorting_fixes_stripe_free",
    "Verif.Sorting.stripe_sorting_preserves_order"
   ],
   "note": ""
  },
  {
   "property": "C07",
   "status": "proved",
   "theorems": [
    "Verif.Io.make_file_name_fresh",
    "Verif.Io.save_image_no_overwrite"
   ],
   "note": "directory = finite name->content map; the parent directory itself exists"
  },
  {
   "property": "C08",
   "status": "proved",
   "theorems": [
    "Verif.Io.make_folder_name_fresh"
   ],
   "note": "freshness is w.r.t. existing folders (the code tests isdir); glob treated as prefix test (prefix without glob metacharacters)"
  },
  {
   "property": "C09",
   "status": "partial",
   "theorems": [
    "Verif.Io.save_image_multiple_collision_refuted",
    "Verif.Io.save_image_multiple_names_partial",
    "Verif.Io.save_image_multiple_contents_partial"
   ],
   "note": "False of the code: only the last five digits are kept, slice 100000 overwrites slice 0 (refuted). Proved for stacks of at most 100000 images."
  },
  {
   "property": "C10",
   "status": "partial",
   "theorems": [
    "Verif.Io.extract_names_injective",
    "Verif.Io.extract_names_sorted_partial",
    "Verif.Io.extract_names_sorted_refuted"
   ],
   "note": "Names are injective for every slice number; string order equals slice order below 100000 slices and fails at 100000 (refuted)."
  },
  {
   "property": "C11",
   "status": "partial",
   "theorems": [
    "Verif.Io.extract_negative_index_refuted",
    "Verif.Io.extract_tuple_partial",
    "Verif.Io.extract_int_partial"
   ],
   "note": "False of the code for index=-1, which writes every slice (refuted). Proved for 0<=start<stop<=len and 0<=i<len and the default."
  },
  {
   "property": "C12",
   "status": "partial",
   "theorems": [
    "Verif.Io.tif_stack_index_refuted",
    "Verif.Io.tif_stack_index_partial"
   ],
   "note": "False of the code for -2n <= idx < -n (refuted for every n at -n-1). Proved for all other indices."
  },
  {
   "property": "C13",
   "status": "partial",
   "theorems": [
    "Verif.Io.check_field_refuted",
    "Verif.Io.check_field_partial",
    "Verif.Io.check_field_mismatch"
   ],
   "note": "False of the code: len(arr)==3 is tested instead of ndim (refuted for 3-row images and for every stack whose depth is not 3)."
  },
  {
   "property": "C14",
   "status": "partial",
   "theorems": [
    "Verif.Io.fix_zero_div_refuted",
    "Verif.Io.fix_zero_div_partial",
    "Verif.Io.fix_zero_div_nonneg_partial"
   ],
   "note": "False for stacks of zero mean (refuted); proved when the mean is non-zero, in particular non-negative stacks with a positive value."
  },
  {
   "property": "C15",
   "status": "proved",
   "theorems": [
    "Verif.Stitch.stitch_image_glues",
    "Verif.Stitch.stitch_image_panorama"
   ],
   "note": "exact arithmetic"
  },
  {
   "property": "C16",
   "status": "partial",
   "theorems": [
    "Verif.Stitch.stitch_image_multiple_norm_refuted",
    "Verif.Stitch.stitch_image_multiple_norm_partial",
    "Verif.Stitch.stitch_image_multiple_panorama_partial",
    "Verif.Stitch.stitch_image_multiple_total_width"
   ],
   "note": "False of the code: norm is passed in the position of another parameter and ignored, so norm=False still normalises (refuted). Proved where the options coincide; panorama theorem for lists."
  },
  {
   "property": "C17",
   "status": "proved",
   "theorems": [
    "Verif.Stitch.join_image_joins",
    "Verif.Stitch.join_image_norm_mean"
   ],
   "note": ""
  },
  {
   "property": "C18",
   "status": "partial",
   "theorems": [
    "Verif.Stitch.convert_360_to_180_geometry",
    "Verif.Stitch.convert_360_fraction",
    "Verif.Stitch.convert_360_fraction_refuted"
   ],
   "note": "Proved for axes at whole and half pixels (convert_360_to_180_geometry). False of the code elsewhere: the shift for the fraction s of the overlap is twice too large, and the two halves appear displaced by s/2 in opposite directions (convert_360_fraction, convert_360_fraction_refuted)."
  },
  {
   "property": "C19",
   "status": "partial",
   "theorems": [
    "Verif.Stitch.extend_sinogram_refuted",
    "Verif.Stitch.extend_sinogram_partial",
    "Verif.Stitch.extend_fraction"
   ],
   "note": "False for an overlap of one column (refuted); proved otherwise for axes at whole and half pixels; elsewhere the data are displaced by half the fraction of the overlap from the returned centre (extend_fraction)."
  },
  {
   "property": "C20",
   "status": "proved",
   "theorems": [
    "Verif.Helical.helical_sinogram_correct",
    "Verif.Helical.helical_no_index_error"
   ],
   "note": "exact arithmetic"
  },
  {
   "property": "C21",
   "status": "partial",
   "theorems": [
    "Verif.Center.find_center_360_right",
    "Verif.Center.find_center_projection_refuted",
    "Verif.Center.find_center_projection_partial"
   ],
   "note": "find_center_360 proved; find_center_projection is off by half a pixel for every input (refuted), adding 1/2 makes it right."
  },
  {
   "property": "C22",
   "status": "partial",
   "theorems": [
    "Verif.Center.find_overlap_options_refuted",
    "Verif.Center.find_overlap_options_swapped",
    "Verif.Center.find_overlap_options_partial"
   ],
   "note": "False of the code: side=None swaps denoise and norm (refuted); proved when they are equal."
  },
  {
   "property": "C23",
   "status": "partial",
   "theorems": [
    "Verif.Center.find_overlap_position_exact",
    "Verif.Center.find_overlap_position_refuted",
    "Verif.Center.find_overlap_position_partial",
    "Verif.Center.search_window_in_range"
   ],
   "note": "False at the largest window and at the first/last two positions (refuted); find_overlap_position_exact gives the result for all windows at every other position."
  },
  {
   "property": "C24",
   "status": "partial",
   "theorems": [
    "Verif.Center.search_best",
    "Verif.Center.coarse_candidates",
    "Verif.Center.fine_search_interval_refuted",
    "Verif.Center.fine_candidates_partial",
    "Verif.Center.search_ncore_refuted",
    "Verif.Center.search_ncore_partial"
   ],
   "note": "Result minimises the metric over candidates for every schedule; fine search can leave the interval when step does not divide it (refuted) and the serial path rounds to float32, so ncore can matter (refuted)."
  },
  {
   "property": "C25",
   "status": "proved",
   "theorems": [
    "Verif.Center.wrap_shift_smallest",
    "Verif.Center.wrap_shift_subpixel",
    "Verif.Center.refine_half",
    "Verif.Center.center_phase_mirror"
   ],
   "note": ""
  },
  {
   "property": "C26",
   "status": "proved",
   "theorems": [
    "Verif.Removal.normalization_blocks",
    "Verif.Removal.normalization_sorted",
    "Verif.Removal.normalization_identity",
    "Verif.Removal.normalization_too_many_chunks"
   ],
   "note": "smoothing filter is a parameter; exact arithmetic"
  },
  {
   "property": "C27",
   "status": "proved",
   "theorems": [
    "Verif.Removal.remove_zinger_only_outliers"
   ],
   "note": "select_zinger is any selection of a subset of the mask; size>=1"
  },
  {
   "property": "C28",
   "status": "proved",
   "theorems": [
    "Verif.Removal.interpolate_inside_stripe_fills",
    "Verif.Removal.remove_dead_stripe_good_columns",
    "Verif.Removal.dilate_spec",
    "Verif.Removal.remove_large_stripe_columns",
    "Verif.Removal.large_stripe_factor_mean",
    "Verif.Stripe.remove_large_stripe_own",
    "Verif.Stripe.remove_dead_stripe_own",
    "Verif.Stripe.interpolate_kind_spec",
    "Verif.Stripe.interpolate_kind_restores",
    "Verif.Stripe.interpolate_kind_linear",
    "Verif.Stripe.firstPoly_exact"
   ],
   "note": "interpolate_inside_stripe for every kind (the spline is a parameter; FITPACK is assumed to interpolate the data row by row, to need k + 1 rows and good columns, and, in interpolate_kind_restores, to be exact for polynomials); for every stripe detector, and with the detector of the code; the smoothing filter is a parameter"
  },
  {
   "property": "C29",
   "status": "partial",
   "theorems": [
    "Verif.Removal.remove_blob_1d_refuted",
    "Verif.Removal.remove_blob_1d_partial",
    "Verif.Removal.remove_blob_partial"
   ],
   "note": "False of the code: remove_blob_1d builds the interpolant from the mask before its edges are zeroed (ValueError when the first/last three pixels are masked) and both functions modify the caller's mask (refuted). Proved: correct values otherwise, and for every mask in remove_blob."
  },
  {
   "property": "C30",
   "status": "proved",
   "theorems": [
    "Verif.Correction.flat_field_correct",
    "Verif.Correction.flat_field_dead",
    "Verif.Correction.flat_field_memory"
   ],
   "note": "exact arithmetic; that the arguments are not modified is shown on a model with arrays in memory (flat_field_memory)"
  },
  {
   "property": "C31",
   "status": "partial",
   "theorems": [
    "Verif.Correction.unwarp_sinogram_eq",
    "Verif.Correction.unwarp_chunk_last_row",
    "Verif.Correction.unwarp_chunk_refuted",
    "Verif.Correction.unwarp_chunk_partial",
    "Verif.Correction.unwarp_chunk_identity_partial",
    "Verif.Correction.unwarp_projection_identity"
   ],
   "note": "False of the code: the slab of unwarp_sinogram_chunk ends one row short (refuted; with no distortion the last row is a copy of the row before). Proved: unwarp_sinogram equals the unwarped projections, and the chunk does whenever its slab covers the rows it samples."
  },
  {
   "property": "C32",
   "status": "proved",
   "theorems": [
    "Verif.BeamHardening.beam_hardening_monotone",
    "Verif.BeamHardening.beam_hardening_image"
   ],
   "note": "real numbers"
  },
  {
   "property": "C33",
   "status": "partial",
   "theorems": [
    "Verif.Correction.upsample_rows_eq",
    "Verif.Correction.upsample_scale_refuted",
    "Verif.Correction.upsample_scale_partial",
    "Verif.Correction.upsample_odd_rejected"
   ],
   "note": "False of the code: the factor is 2^(scale/2), wrong from scale 6 on (refuted), odd scales are rejected. Proved: the row count for every scale and correctness for scales 2 and 4."
  },
  {
   "property": "C34",
   "status": "proved",
   "theorems": [
    "Verif.Fourier.fresnel_ratio_zero",
    "Verif.Fourier.fresnel_constant",
    "Verif.Fourier.fresnel_linear",
    "Verif.Fourier.mtf_identity",
    "Verif.Fourier.wedge_filter_keeps",
    "Verif.Fourier.separate_frequency_sum"
   ],
   "note": "exact complex arithmetic with the DFT given by its defining sum (idft2_dft2 is proved); pad modes edge/reflect as used by each function"
  },
  {
   "property": "C35",
   "status": "proved",
   "theorems": [
    "Verif.Phase.wrap_to_pi"
   ],
   "note": "exact reals"
  },
  {
   "property": "C36",
   "status": "proved",
   "theorems": [
    "Verif.Phase.wrapped_gradient_eq",
    "Verif.Phase.unwrap_cosine_exact",
    "Verif.Phase.idctn_dctn"
   ],
   "note": "exact reals; scipy's dctn/idctn are modelled by their defining sums and idctn is proved to invert dctn"
  },
  {
   "property": "C37",
   "status": "partial",
   "theorems": [
    "Verif.Phase.fc_window_transpose_refuted",
    "Verif.Phase.fc_window_transpose_iff",
    "Verif.Phase.fc_window_transpose_partial"
   ],
   "note": "False of the code for every non-square size: both axes are divided by the width (refuted, iff); holds for squares."
  },
  {
   "property": "C38",
   "status": "partial",
   "theorems": [
    "Verif.DarkField.dark_field_margin_refuted",
    "Verif.DarkField.dark_field_correct_partial",
    "Verif.DarkField.dark_field_no_error_partial"
   ],
   "note": "False with the default margin, which truncates the largest shift while the index rounds it (refuted). Proved for every explicit margin not smaller than the largest shift, any ncore and schedule."
  },
  {
   "property": "C39",
   "status": "partial",
   "theorems": [
    "Verif.Post.stat_info",
    "Verif.Post.stat_dataset_partial",
    "Verif.Post.stat_dataset_swapped",
    "Verif.Post.stat_dataset_mean_refuted",
    "Verif.Post.stat_dataset_single_refuted",
    "Verif.Post.npPercentile_spec",
    "Verif.Post.IsPercentile.unique"
   ],
   "note": "False of the code: the dataset version returns the mean of slice medians as mean and the median of slice means as median (refuted), and every one-slice data set is rejected (refuted). Proved: single-image statistics, and min/max/percentile/variance columns of the dataset version."
  },
  {
   "property": "C40",
   "status": "partial",
   "theorems": [
    "Verif.Post.downsample_cells_partial",
    "Verif.Post.downsample_dataset_partial",
    "Verif.Post.downsample_median_partial",
    "Verif.Post.downsample_median_refuted"
   ],
   "note": "Proved for mean, max, min (image and data set versions, numpy reshape modelled by C-order flat indices). False for median: the code takes medians of row medians (refuted)."
  },
  {
   "property": "C41",
   "status": "proved",
   "theorems": [
    "Verif.Post.rescale_bounded_monotone",
    "Verif.Post.rescale_errors"
   ],
   "note": "exact reals; gmin=gmax (division by zero, NaN) is an error in the model"
  },
  {
   "property": "C42",
   "status": "partial",
   "theorems": [
    "Verif.Post.downsample_overwrite",
    "Verif.Post.rescale_overwrite_ignored",
    "Verif.Post.rescale_overwrite_refuted",
    "Verif.Post.rescale_overwrite_partial"
   ],
   "note": "Proved for downsample_dataset; false of rescale_dataset, which opens its stream with overwrite=False whatever the option (refuted); hdf output."
  },
  {
   "property": "C43",
   "status": "partial",
   "theorems": [
    "Verif.Post.reslice_partial",
    "Verif.Post.reslice_hdf_crop_refuted",
    "Verif.Post.reslice_single_refuted",
    "Verif.Post.resliceName_distinct"
   ],
   "note": "Proved for tif input, any chunk, both axes, any crop with at least two images and two output slices, and for hdf input with no front crop. False for hdf input with a front crop (refuted) and for one image or one output slice (refuted)."
  },
  {
   "property": "C44",
   "status": "partial",
   "theorems": [
    "Verif.Post.reslice_deletes_refuted",
    "Verif.Post.reslice_deletes_nothing_partial",
    "Verif.Post.reslice_cleans_up"
   ],
   "note": "False of the code: rmtree(splitext(output)[0]) removes a pre-existing folder of that name (refuted); proved when nothing existed below it."
  },
  {
   "property": "C45",
   "status": "proved",
   "theorems": [
    "Verif.Fourier.ramp_filter_convolution",
    "Verif.Fourier.centered_spec",
    "Verif.Fourier.ramp_even",
    "Verif.Fourier.rampKernel_eq",
    "Verif.Recon.ramp_filter_even",
    "Verif.Recon.kerC_even"
   ],
   "note": "any width, pad and pad mode (any index map whose middle is the identity)"
  },
  {
   "property": "C46",
   "status": "partial",
   "theorems": [
    "Verif.LogStep.direct_caller",
    "Verif.LogStep.reconstruction_input_unchanged_refuted",
    "Verif.LogStep.reconstruction_input_unchanged_partial",
    "Verif.LogStep.reconstruction_repeatable_partial",
    "Verif.LogStep.dfi_input_unchanged",
    "Verif.LogStep.center_search_input",
    "Verif.LogStep.vertical_caller",
    "Verif.LogStep.vertical_input_unchanged_partial"
   ],
   "note": "False as stated: with apply_log the caller's non-positive values are overwritten by 1 (reconstruction_input_unchanged_refuted). Proved: exact effect, unchanged iff apply_log is off or all values are positive, dfi always unchanged, repeated calls give the same data, vertical reconstruction."
  },
  {
   "property": "C47",
   "status": "proved",
   "theorems": [
    "Verif.Vertical.vertical_points",
    "Verif.Vertical.vertical_points_line",
    "Verif.Vertical.vertical_points_error",
    "Verif.Vertical.vertical_points_opposite"
   ],
   "note": "All slice offsets, angles in [0,180] degrees and widths; exact error condition."
  },
  {
   "property": "C48",
   "status": "proved",
   "theorems": [
    "Verif.Vertical.vertical_bp_cpu_correct",
    "Verif.Vertical.vertical_bp_cpu_chunk_correct",
    "Verif.Vertical.vertical_bp_gpu_correct",
    "Verif.Vertical.vertical_reconstruction_chunk_independent",
    "Verif.Vertical.vertical_reconstruction_multiple_eq_single",
    "Verif.Vertical.vertical_reconstruction_gpu_eq",
    "Verif.Vertical.vertical_reconstruction_checks",
    "Verif.Vertical.multiple_lines_get",
    "Verif.Vertical.complete_schedule_exists"
   ],
   "note": "Accumulated slice (before the final filter, mask and scaling, which act on it alone) for all chunk sizes, thread counts, assignments, interleavings and store orders; exact arithmetic."
  },
  {
   "property": "C49",
   "status": "partial",
   "theorems": [
    "Verif.VerticalCenter.find_center_vertical_partial",
    "Verif.VerticalCenter.find_center_vertical_refuted",
    "Verif.VerticalCenter.find_center_vertical_int_partial",
    "Verif.VerticalCenter.find_center_vertical_error",
    "Verif.VerticalCenter.mem_centers"
   ],
   "note": "False for integer start/stop/step (metrics truncated). Proved for float candidates; for integer candidates the loss is below one metric unit; candidates may run past stop and raise."
  },
  {
   "property": "C50",
   "status": "proved",
   "theorems": [
    "Verif.Correlation.correlation_map_spec",
    "Verif.Correlation.coef_bounded",
    "Verif.Correlation.coef_eq_one_iff",
    "Verif.Correlation.coef_eq_neg_one",
    "Verif.Correlation.coef_constant",
    "Verif.Correlation.coef_gain_invariant",
    "Verif.Correlation.coef_comm",
    "Verif.Correlation.correlation_map_gpu_eq_cpu"
   ],
   "note": "All images/stacks and sizes; error condition included; CPU and GPU formulas agree. Exact arithmetic."
  },
  {
   "property": "C51",
   "status": "proved",
   "theorems": [
    "Verif.Correlation.locate1d_diff_half",
    "Verif.Correlation.locate1d_diff_parabola",
    "Verif.Correlation.locate1d_diff_edge",
    "Verif.Correlation.locate1d_poly_parabola",
    "Verif.Correlation.locate2d_diff_quadratic",
    "Verif.Correlation.locate_peak_max",
    "Verif.Correlation.locate_peak_min"
   ],
   "note": "1D and 2D refinement and locate_peak itself."
  },
  {
   "property": "C52",
   "status": "proved",
   "theorems": [
    "Verif.Umpa.umpa_dark_optimal",
    "Verif.Umpa.umpa_optimal",
    "Verif.Umpa.umpa_cost_nonneg",
    "Verif.Umpa.umpa_dark_exact",
    "Verif.Umpa.umpa_exact",
    "Verif.Umpa.umpa_shift"
   ],
   "note": "Exact arithmetic; the hypotheses (signal varies / is nonzero in the window) exclude only the division by zero."
  },
  {
   "property": "C53",
   "status": "partial",
   "theorems": [
    "Verif.LocalShifts.local_shifts_partial",
    "Verif.LocalShifts.local_shifts_chunk_independent_partial",
    "Verif.LocalShifts.find_local_shifts_2d_partial",
    "Verif.LocalShifts.find_local_shifts_y_partial",
    "Verif.GpuShifts.shifts_x",
    "Verif.LocalShifts.local_shifts_index_error",
    "Verif.LocalShifts.local_shifts_too_small",
    "Verif.LocalShifts.local_shifts_minimum_height_refuted",
    "Verif.LocalShifts.local_shifts_chunk_one_refuted",
    "Verif.LocalShifts.find_local_shifts_y_norm_refuted"
   ],
   "note": "False as stated: empty chunks raise (local_shifts_index_error), the documented minimum size fails (local_shifts_minimum_height_refuted), chunk_size=1 fails (local_shifts_chunk_one_refuted), and y-only search with the default normalisation depends on chunking (find_local_shifts_y_norm_refuted). Proved: full-size result equal to the one-chunk result when there are at most as many chunks as rows to process."
  },
  {
   "property": "C54",
   "status": "partial",
   "theorems": [
    "Verif.GlobalShift.global_value_between",
    "Verif.GlobalShift.global_value_perm",
    "Verif.GlobalShift.global_value_const",
    "Verif.GlobalShift.global_value_affine",
    "Verif.GlobalShift.global_value_neg_partial",
    "Verif.GlobalShift.global_value_mixed_neg_refuted",
    "Verif.GlobalShift.global_value_robust"
   ],
   "note": "Oddness is false for mixed with an odd number >= 7 of points (global_value_mixed_neg_refuted, for every such number); everything else proved for all lists and modes, plus outlier tolerance."
  },
  {
   "property": "C55",
   "status": "partial",
   "theorems": [
    "Verif.Regularization.green_inverse",
    "Verif.Regularization.optimal_iff",
    "Verif.Regularization.reg_coef_partial",
    "Verif.Regularization.regularization_optimal_refuted",
    "Verif.Regularization.regularization_mirror_refuted",
    "Verif.Regularization.listCoe_affine",
    "Verif.Regularization.listCoe_const",
    "Verif.Regularization.regularization_blocks",
    "Verif.Regularization.regularization_sorted",
    "Verif.Regularization.regularization_errors"
   ],
   "note": "The property is false of the code for every width >= 2 and every alpha > 0 (two refutations). Proved: the true inverse and minimiser, the exact relation of the code's coefficients to it, invariance under constants, linearity, the per-block update for every chunking, the sorted variant, the error cases."
  },
  {
   "property": "C56",
   "status": "partial",
   "theorems": [
    "Verif.Locate.locate_rows",
    "Verif.Locate.locate_cover",
    "Verif.Locate.locate_weights_partial",
    "Verif.Locate.locate_single_overlap_refuted",
    "Verif.Locate.locate_triple_refuted",
    "Verif.Locate.locate_chunk_rows",
    "Verif.Locate.locate_chunk_partial",
    "Verif.Locate.locate_chunk_unequal_refuted",
    "Verif.Locate.locate_errors"
   ],
   "note": "False of the code for overlaps of one slice, for slices shared by three rows, and in locate_slice_chunk for unequal overlaps (three refutations, each for all sizes). Proved otherwise."
  },
  {
   "property": "C57",
   "status": "partial",
   "theorems": [
    "Verif.Simulation.circle_mask_spec",
    "Verif.Simulation.circle_mask_01",
    "Verif.Simulation.circle_mask_mono",
    "Verif.Simulation.circle_mask_symm_partial",
    "Verif.Simulation.circle_mask_flip_refuted"
   ],
   "note": "Flip symmetry is false for every even width and ratio in [0,1]; everything else proved."
  },
  {
   "property": "C58",
   "status": "partial",
   "theorems": [
    "Verif.GridFix.fix_keeps",
    "Verif.GridFix.fix_origin",
    "Verif.GridFix.fix_adjacent",
    "Verif.GridFix.fix_filled_iff",
    "Verif.GridFix.fix_complete_iff"
   ],
   "note": "That no zero is left is false in general: fix_complete_iff gives the exact condition. Everything else proved for all tables."
  },
  {
   "property": "C59",
   "status": "partial",
   "theorems": [
    "Verif.Simulation.add_stripe_local",
    "Verif.Simulation.add_stripe_values",
    "Verif.Simulation.add_stripe_partial_type",
    "Verif.Simulation.add_stripe_last_refuted",
    "Verif.Simulation.add_stripe_whole"
   ],
   "note": "The last column can never be part of the stripe (refuted for every sinogram and position); stripes as wide as the sinogram fail. Otherwise proved for all types, strengths and random numbers."
  },
  {
   "property": "C60",
   "status": "partial",
   "theorems": [
    "Verif.Simulation.xray_given",
    "Verif.Simulation.xray_default",
    "Verif.Simulation.xray_zero_refuted"
   ],
   "note": "False for an image of zeros with global_max=None."
  },
  {
   "property": "C61",
   "status": "partial",
   "theorems": [
    "Verif.Io.concurrent_save_image_refuted",
    "Verif.Io.sequential_save_image_partial"
   ],
   "note": "False of the code: check and write are separate steps (refuted by an interleaving). Proved when the two calls do not overlap."
  },
  {
   "property": "C62",
   "status": "proved",
   "theorems": [
    "Verif.Io.distortion_file_round_trip"
   ],
   "note": "float printing/parsing is an abstract inverse pair without white space"
  },
  {
   "property": "C63",
   "status": "partial",
   "theorems": [
    "Verif.Stitch.stitch_image_int_refuted",
    "Verif.Stitch.stitch_image_int_partial"
   ],
   "note": "False of the code: the weight ramp is stored in an integer array (refuted); proved for storage that keeps the weights."
  },
  {
   "property": "C64",
   "status": "proved",
   "theorems": [
    "Verif.Center.center_metric_mirror",
    "Verif.CenterMetric.completed_mirror"
   ],
   "note": "Whole and half positions without assumption; elsewhere the spline shift is a parameter that is exact for the scene (completed_mirror; linear interpolation and a linear scene meet this)."
  },
  {
   "property": "C65",
   "status": "partial",
   "theorems": [
    "Verif.Correction.flat_field_int_refuted",
    "Verif.Correction.flat_field_int_partial"
   ],
   "note": "False of the code: the mean is truncated when stored in an integer array (refuted); proved when flat and dark differ everywhere."
  },
  {
   "property": "C66",
   "status": "proved",
   "theorems": [
    "Verif.Correction.tilted_line",
    "Verif.Correction.tilted_sinogram_eq",
    "Verif.Correction.tilted_chunk_eq_single",
    "Verif.Correction.tilted_sinogram_zero",
    "Verif.Correction.tilted_coordinates_in_range"
   ],
   "note": "exact reals"
  },
  {
   "property": "C67",
   "status": "partial",
   "theorems": [
    "Verif.Fourier.separate_gain",
    "Verif.Fourier.separate_constants_refuted",
    "Verif.Fourier.gaussian_filter_gain",
    "Verif.Fourier.gaussian_constants_refuted"
   ],
   "note": "False of the code for even sizes: the gaussian is centred at (n-1)/2 while the zero frequency sits at n/2 (refuted for every nonzero constant, with the exact gain)."
  },
  {
   "property": "C68",
   "status": "proved",
   "theorems": [
    "Verif.Surface.scs_poisson",
    "Verif.Surface.surface_scs"
   ],
   "note": "pad = 0, exact complex arithmetic"
  },
  {
   "property": "C69",
   "status": "partial",
   "theorems": [
    "Verif.Surface.damping_residue",
    "Verif.Surface.damping_stripes_refuted",
    "Verif.Surface.damping_stripes_partial"
   ],
   "note": "False for every even height (refuted: the gaussian window keeps the fraction 1-exp(-1/(2 size^2)) of each stripe); proved for every odd height."
  },
  {
   "property": "C70",
   "status": "partial",
   "theorems": [
    "Verif.Surface.butterworth_centred_refuted",
    "Verif.Surface.butterworth_misses_zero_row",
    "Verif.Surface.butterworth_centred_partial"
   ],
   "note": "False for even sizes (refuted; with v=0 the zero row is not damped at all); proved for odd sizes."
  },
  {
   "property": "C71",
   "status": "partial",
   "theorems": [
    "Verif.Correlation.find_shift_recovers_partial",
    "Verif.Correlation.find_shift_axis1_partial",
    "Verif.Correlation.find_shift_axis0_partial",
    "Verif.Correlation.find_shift_small_refuted",
    "Verif.Correlation.exShift_hyp"
   ],
   "note": "Proved for sizes above 2*margin+3; below that the code silently answers (0,0) (find_shift_small_refuted)."
  },
  {
   "property": "C72",
   "status": "partial",
   "theorems": [
    "Verif.LocalShifts.find_local_shifts_recovers_partial",
    "Verif.GpuShifts.hybrid_recovers_partial",
    "Verif.GpuShifts.gpu_recovers_partial",
    "Verif.GlobalShift.find_shift_template",
    "Verif.LocalShifts.exL_shift",
    "Verif.GpuShifts.pixCol_recovers",
    "Verif.GpuShifts.shifts_x_recovers",
    "Verif.GpuShifts.shifts_x_gpu_recovers",
    "Verif.GpuShifts.shifts_y_recovers_partial",
    "Verif.GpuShifts.shifts_y_gpu_recovers_partial",
    "Verif.GpuShifts.normalize2_roll",
    "Verif.GpuShifts.shifts_x_norm_recovers",
    "Verif.GpuShifts.exLine_shift",
    "Verif.GpuShifts.exNorm_vals",
    "Verif.LocalShifts.find_local_shifts_y_norm_refuted"
   ],
   "note": "Chunkings with empty chunks raise (C53). dim=1: along x for every chunk size and both settings of norm (with norm=True the hypothesis is about the normalised lines, and shifts_x_norm_recovers gives it for rolled lines of a common brightness factor); along y for norm=False only, because with norm=True the result depends on the chunking (find_local_shifts_y_norm_refuted)."
  },
  {
   "property": "C73",
   "status": "partial",
   "theorems": [
    "Verif.GlobalShift.global_shift_recovers_partial",
    "Verif.GlobalShift.point_shift",
    "Verif.GlobalShift.get_input_list",
    "Verif.GlobalShift.get_input_list_box_refuted",
    "Verif.GlobalShift.exWindow",
    "Verif.GlobalShift.global_shift_norm_recovers",
    "Verif.GlobalShift.global_norm_refuted",
    "Verif.GlobalShift.normImage_roll"
   ],
   "note": "Translated windows are recovered with norm=False; with the default norm=True the claim is false of the code (global_norm_refuted: the images are divided by row and column sums that depend on what lies outside the windows) and holds for images rolled around (global_shift_norm_recovers). Points of the first row/column of the announced box are refused (get_input_list_box_refuted); points outside are dropped silently (get_input_list)."
  },
  {
   "property": "C74",
   "status": "proved",
   "theorems": [
    "Verif.Simulation.background_spec"
   ],
   "note": "Exact arithmetic; images narrower than 131072 pixels (int16)."
  },
  {
   "property": "C75",
   "status": "proved",
   "theorems": [
    "Verif.Simulation.elliptic_spec",
    "Verif.Simulation.rectangular_spec",
    "Verif.Simulation.masks_inside",
    "Verif.Simulation.masks_half_turn",
    "Verif.Simulation.masks_translate",
    "Verif.Simulation.masks_quarter_turn",
    "Verif.Simulation.masks_circle_mono"
   ],
   "note": "Exact arithmetic."
  },
  {
   "property": "C76",
   "status": "proved",
   "theorems": [
    "Verif.Simulation.spiral_spec",
    "Verif.Simulation.spiral_radius",
    "Verif.Simulation.spiral_fits"
   ],
   "note": "Exact arithmetic."
  },
  {
   "property": "C77",
   "status": "proved",
   "theorems": [
    "Verif.Calibration.fit_ellipse",
    "Verif.Calibration.fit_circle",
    "Verif.Calibration.fit_range",
    "Verif.Calibration.fit_length_error",
    "Verif.Calibration.svd_exists",
    "Verif.Calibration.fit_five_points_refuted"
   ],
   "note": "Exact arithmetic. (For exactly five points it would be false: the vector used is then orthogonal to the true conic, fit_five_points_refuted.)"
  },
  {
   "property": "C78",
   "status": "partial",
   "theorems": [
    "Verif.Calibration.tilt_roll_errors",
    "Verif.Calibration.tilt_roll_collinear",
    "Verif.Calibration.tilt_roll_ellipse",
    "Verif.Calibration.tilt_roll_range",
    "Verif.Calibration.tilt_underestimated",
    "Verif.Ndi.gaussianList_isSmooth"
   ],
   "note": "Everything proved but the tilt of the ellipse method, which is arctan(minor/major) instead of arcsin: smaller than the tilt for every tilt in (0,90) degrees. The law assumed of gaussian_filter1d is proved of scipy's filter (gaussianList_isSmooth)."
  },
  {
   "property": "C79",
   "status": "partial",
   "theorems": [
    "Verif.Blobs.select_zinger_spec",
    "Verif.Blobs.select_zinger_partial",
    "Verif.Blobs.select_zinger_big",
    "Verif.Blobs.select_zinger_label",
    "Verif.Blobs.select_zinger_refuted"
   ],
   "note": "True if no region enters the bounding rectangle of another; false otherwise (both a large region partly kept and a small one dropped)."
  },
  {
   "property": "C80",
   "status": "partial",
   "theorems": [
    "Verif.Blobs.dot_size_spec",
    "Verif.Blobs.binarize_error",
    "Verif.Blobs.binarize_spec",
    "Verif.Blobs.binarize_contrast",
    "Verif.Blobs.distance_symm",
    "Verif.Blobs.distance_one_dot",
    "Verif.Blobs.centroid_moved",
    "Verif.Blobs.distance_mean_refuted",
    "Verif.Blobs.distance_extreme",
    "Verif.Blobs.distance_one_size"
   ],
   "note": "False for several dots of different sizes with size_opt mean or median (nan). Otherwise proved: one dot per image; several dots of one size (every size_opt); several dots whose largest (smallest) one differs by more than 1 percent, with size_opt max (min), if the bounding boxes do not reach into other dots. Filters, automatic threshold and hole filling are parameters."
  },
  {
   "property": "C81",
   "status": "proved",
   "theorems": [
    "Verif.Stripe.detect_perm",
    "Verif.Stripe.detect_affine",
    "Verif.Stripe.detect_interval",
    "Verif.Stripe.detect_snr",
    "Verif.Stripe.detect_bright",
    "Verif.Stripe.detect_dark",
    "Verif.Stripe.detect_rejects_flat",
    "Verif.Stripe.detect_short",
    "Verif.Stripe.detect_errors",
    "Verif.Stripe.fit_optimal"
   ],
   "note": "exact arithmetic; polyfit is the least-squares line (fit_optimal); the unit claim holds whenever both calls succeed (the noise floor 1e-5 is absolute)"
  },
  {
   "property": "C82",
   "status": "partial",
   "theorems": [
    "Verif.Stripe.polarity_refuted",
    "Verif.Stripe.polarity_partial"
   ],
   "note": "False of the code: refuted by a five-value list; proved for evenly spread data with stripes."
  },
  {
   "property": "C83",
   "status": "partial",
   "theorems": [
    "Verif.Stripe.interpolation_columns",
    "Verif.Stripe.interpolation_linear",
    "Verif.Stripe.interpolation_succeeds",
    "Verif.Stripe.interpolation_error",
    "Verif.Stripe.interpolation_factor_ne_zero",
    "Verif.Stripe.kind_refuted"
   ],
   "note": "Proved except for the kind option: cubic and quintic give the same result (degree 2). Splines of degree > 1 are a parameter."
  },
  {
   "property": "C84",
   "status": "partial",
   "theorems": [
    "Verif.Stripe.large_factor_refuted",
    "Verif.Stripe.large_factor_partial"
   ],
   "note": "False of the code for a column of zeros that is not detected; proved if the trimmed column means are non-zero."
  },
  {
   "property": "C85",
   "status": "proved",
   "theorems": [
    "Verif.Stripe.blob_mask_spec",
    "Verif.Stripe.blob_mask_flat_row"
   ],
   "note": "median filters are parameters (the flat-row theorem uses that they keep constants)"
  },
  {
   "property": "C86",
   "status": "proved",
   "theorems": [
    "Verif.Wavelet.check_level_spec",
    "Verif.Wavelet.apply_filter_spec",
    "Verif.Wavelet.apply_filter_errors"
   ],
   "note": "The method is any function that may raise."
  },
  {
   "property": "C87",
   "status": "partial",
   "theorems": [
    "Verif.Wavelet.level_used",
    "Verif.Wavelet.level_too_small"
   ],
   "note": "The claim is false for images with a side below 16 (level_too_small); proved for all others."
  },
  {
   "property": "C88",
   "status": "partial",
   "theorems": [
    "Verif.Wavelet.reconstruct_ignores",
    "Verif.Wavelet.reconstruct_refuted",
    "Verif.Wavelet.reconstruct_partial"
   ],
   "note": "False of the code: the ignored level stays zero in the caller's data."
  },
  {
   "property": "C89",
   "status": "partial",
   "theorems": [
    "Verif.Polar.polar_coordinates_inside",
    "Verif.Polar.forward_exact",
    "Verif.Polar.round_trip_partial",
    "Verif.Polar.round_trip_refuted",
    "Verif.Polar.transform_slice_spec"
   ],
   "note": "False of the code: radii come back multiplied by wp/(wp-1). Interpolation error is not bounded."
  },
  {
   "property": "C90",
   "status": "proved",
   "theorems": [
    "Verif.Polar.regularization_filter_spec",
    "Verif.Polar.regularization_filter_linear",
    "Verif.Polar.regularization_filter_axis",
    "Verif.Polar.regularization_filter_error"
   ],
   "note": ""
  },
  {
   "property": "C91",
   "status": "proved",
   "theorems": [
    "Verif.Polar.window_central_column",
    "Verif.Polar.window_radial",
    "Verif.Polar.window_halves"
   ],
   "note": "Order-1 interpolation (the default)."
  },
  {
   "property": "C92",
   "status": "proved",
   "theorems": [
    "Verif.StripeFilters.filtering_stripe_free",
    "Verif.StripeFilters.filtering_keeps_sharp",
    "Verif.StripeFilters.filtering2d_change",
    "Verif.StripeFilters.filtering2d_constant"
   ],
   "note": "Exact arithmetic; 1D filter options are a parameter."
  },
  {
   "property": "C93",
   "status": "partial",
   "theorems": [
    "Verif.StripeFilters.fitting_scale_savgol",
    "Verif.StripeFilters.fitting_constant_savgol_partial",
    "Verif.StripeFilters.fitting_constant_savgol_refuted",
    "Verif.StripeFilters.fitting_scale_sorted",
    "Verif.StripeFilters.orderOnly_exists",
    "Verif.StripeFilters.fitting_constant_refuted",
    "Verif.StripeFilters.fit_length_spec",
    "Verif.StripeFilters.fit_length_errors",
    "Verif.StripeFilters.fitting_constant_partial",
    "Verif.StripeFilters.fitting_scale"
   ],
   "note": "Constants: proved for even sizes, false of the code for odd widths (fitting_constant_refuted). Scaling proved with and without sorting. The general theorems hold for any filter with the stated properties; they are instantiated with the Savitzky-Golay filter of C167. With sorting the argsort is assumed to look at the order only (OrderOnly, met by merge sort)."
  },
  {
   "property": "C94",
   "status": "partial",
   "theorems": [
    "Verif.StripeFilters.remove_all_refuted",
    "Verif.StripeFilters.remove_all_partial",
    "Verif.StripeFilters.remove_all_chain"
   ],
   "note": "False of the code: stripe-free sinograms raise ValueError."
  },
  {
   "property": "C95",
   "status": "partial",
   "theorems": [
    "Verif.StripeFilters.fft_stripe_free_partial",
    "Verif.StripeFilters.fft_constant_gain",
    "Verif.StripeFilters.fft_stripe_free_refuted",
    "Verif.StripeFilters.fft_nonneg"
   ],
   "note": "False for negative profiles and even widths; proved for odd widths and non-negative profiles (with or without sorting), with the exact gain for constants in even sizes."
  },
  {
   "property": "C96",
   "status": "proved",
   "theorems": [
    "Verif.StripeFilters.wavelet_sizes",
    "Verif.StripeFilters.wavelet_stripe_free",
    "Verif.Pywt.pywt_stripe_free",
    "Verif.Pywt.pywt_good"
   ],
   "note": "General theorem for any transform that reconstructs perfectly and gives zero vertical details for stripe-free images (GoodWavelet); instantiated with the filter banks of PyWavelets (pywt_stripe_free; haar and db2 meet the hypothesis, C169)."
  },
  {
   "property": "C97",
   "status": "partial",
   "theorems": [
    "Verif.StripeFilters.ring_shape",
    "Verif.StripeFilters.ring_wavelet_constant",
    "Verif.Pywt.pywt_ring_constant",
    "Verif.StripeFilters.ring_fft_partial"
   ],
   "note": "Constant images: with the wavelet method (at least 14 x 14) proved; with the FFT method and odd widths true for non-negative values, false for negative ones."
  },
  {
   "property": "C98",
   "status": "partial",
   "theorems": [
    "Verif.Stacks.dls_spec_partial",
    "Verif.Stacks.dls_fix",
    "Verif.Stacks.zeroToMean3_spec",
    "Verif.Stacks.dls_ok",
    "Verif.Stacks.dls_index_sound",
    "Verif.Stacks.use_count_spec",
    "Verif.Stacks.dls_manual",
    "Verif.Stacks.dls_nokey",
    "Verif.Stacks.dls_single_refuted",
    "Verif.Stacks.dls_missing_refuted",
    "Verif.Stacks.dls_gap_refuted",
    "Verif.Stacks.dls_shift_refuted"
   ],
   "note": "Proved for files whose keys form one block each at a common offset; false of the code otherwise (gap, shift), for a file without flats and for single-image blocks."
  },
  {
   "property": "C99",
   "status": "proved",
   "theorems": [
    "Verif.Stacks.image_stack_spec",
    "Verif.Stacks.crop_box_spec",
    "Verif.Stacks.stacks_agree",
    "Verif.Stacks.tif_agree",
    "Verif.Stacks.tif_stack_all",
    "Verif.Stacks.zeroToMean3_spec"
   ],
   "note": "2D flat and dark fields, and image heights other than 3 (the field reader takes any first axis of length 3 as a stack to average, C13)."
  },
  {
   "property": "C100",
   "status": "partial",
   "theorems": [
    "Verif.Stacks.emu_spec_partial",
    "Verif.Stacks.slice_indices_inside",
    "Verif.Stacks.slice_spec",
    "Verif.Stacks.emu_empty_slice_refuted",
    "Verif.Stacks.emu_numpy_index_refuted",
    "Verif.Stacks.emu_init_spec"
   ],
   "note": "False of the code for empty slices (ValueError), numpy integers (TypeError) and folders with only .TIF names (FileNotFoundError)."
  },
  {
   "property": "C101",
   "status": "partial",
   "theorems": [
    "Verif.Hdf.info_spec",
    "Verif.Hdf.find_spec",
    "Verif.Hdf.load_spec",
    "Verif.Hdf.info_twice_refuted"
   ],
   "note": "False of the code: datasets inside groups are listed twice; non-empty groups and links at the top level are not listed. Everything else is proved."
  },
  {
   "property": "C102",
   "status": "proved",
   "theorems": [
    "Verif.Hdf.tree_lines",
    "Verif.Hdf.tree_injective",
    "Verif.Hdf.tree_paths",
    "Verif.Hdf.tree_count",
    "Verif.Hdf.tree_marks",
    "Verif.Hdf.tree_link_group",
    "Verif.Hdf.tree_code"
   ],
   "note": "A dangling link and an empty group print alike (tree_link_group)."
  },
  {
   "property": "C103",
   "status": "partial",
   "theorems": [
    "Verif.Hdf.stream_spec_partial",
    "Verif.Hdf.stream_sibling_refuted",
    "Verif.Hdf.stream_old_lost",
    "Verif.Hdf.stream_refused_truncates",
    "Verif.Hdf.stream_name_spec"
   ],
   "note": "False of the code: siblings whose name continues the main key are refused, a refused call truncates the file, foreign extensions are replaced."
  },
  {
   "property": "C104",
   "status": "partial",
   "theorems": [
    "Verif.Recon.fbp_error_iff",
    "Verif.Recon.fbp_spec",
    "Verif.Recon.fbp_closed_form",
    "Verif.Recon.fbp_chunk_eq_slices",
    "Verif.Recon.fbp_outside_zero",
    "Verif.Recon.fbp_linear",
    "Verif.Recon.fbp_rotate",
    "Verif.Recon.fbp_permute",
    "Verif.Recon.fbp_mirror",
    "Verif.Recon.fbp_mirror_filters",
    "Verif.Recon.fbp_int_one_core",
    "Verif.Recon.fbp_ncore_refuted",
    "Verif.Recon.recon_defaults",
    "Verif.Recon.slice_spec"
   ],
   "note": "False of the code: with integer data, apply_log=False and one core the filtered values are truncated to integers, so the result depends on ncore. The mirror property is proved for every filter name and symmetric pad modes (no window given by the caller), the rotation with mask for odd widths."
  },
  {
   "property": "C105",
   "status": "partial",
   "theorems": [
    "Verif.Recon.bpf_error_iff",
    "Verif.Recon.bpf_spec",
    "Verif.Recon.bpf_chunk_eq_slices_partial",
    "Verif.Recon.bpf_outside_zero",
    "Verif.Recon.bpf_linear",
    "Verif.Recon.bpf_constant",
    "Verif.Recon.circ_gain",
    "Verif.Recon.bpf_window_refuted",
    "Verif.Recon.circ_convolution",
    "Verif.Recon.circ_identity",
    "Verif.Recon.recon_defaults"
   ],
   "note": "False of the code: a caller's window that does not fit is replaced by different windows for a slice and for a chunk."
  },
  {
   "property": "C106",
   "status": "partial",
   "theorems": [
    "Verif.Recon.window_low_pass",
    "Verif.Recon.window_frequency_partial",
    "Verif.Recon.window_even_refuted"
   ],
   "note": "False of the code for even widths: the window is displaced by half a sample."
  },
  {
   "property": "C107",
   "status": "proved",
   "theorems": [
    "Verif.Dfi.mapping_spec",
    "Verif.Dfi.mapping_spec_all",
    "Verif.Dfi.mapping_range",
    "Verif.Dfi.mapping_central_row",
    "Verif.Dfi.mapping_central_column"
   ],
   "note": "Exact real arithmetic."
  },
  {
   "property": "C108",
   "status": "partial",
   "theorems": [
    "Verif.Ndi.dfiSpline_exact",
    "Verif.Dfi.dfi_angles_ascending",
    "Verif.Dfi.dfi_angles_descending",
    "Verif.Dfi.dfi_angles_descending_partial",
    "Verif.Dfi.dfi_angles_descending_refuted",
    "Verif.Dfi.dfi_angles_fold",
    "Verif.Dfi.dfi_angles_even_refuted",
    "Verif.Dfi.dfi_angles_open_refuted"
   ],
   "note": "False of the code: descending angles turn the object by twice the start angle. The interpolation is exact at sample positions (dfiSpline_exact, for scipy's splines); and a scan over 360 degrees is folded onto wrong rows unless the angles run from 0 to 360 degrees inclusive in an odd number of rows (neighbouring projections are mixed). Start angles that are not multiples of the step need interpolation between rows."
  },
  {
   "property": "C109",
   "status": "partial",
   "theorems": [
    "Verif.Ndi.dfiSpline_exact",
    "Verif.Ndi.dfiSpline_linear",
    "Verif.Dfi.dfi_error_iff",
    "Verif.Dfi.dfi_spec",
    "Verif.Dfi.dfi_chunk_eq_slices",
    "Verif.Dfi.dfi_outside_zero",
    "Verif.Dfi.dfi_linear",
    "Verif.Dfi.dfi_column_sums",
    "Verif.Dfi.dfi_column_sums_unfiltered",
    "Verif.Dfi.dfi_row_sums",
    "Verif.Dfi.dfi_total",
    "Verif.Dfi.dfi_projection",
    "Verif.Dfi.dfi_padded",
    "Verif.Dfi.dfi_one_row_refuted"
   ],
   "note": "The interpolation is a parameter, exact at samples or linear where needed (proved of scipy's splines: dfiSpline_exact, dfiSpline_linear); the sums are those of the image before cropping to the caller's width, and of the returned image without padding; dfi_padded describes padding, logarithm, crop and mask. False of the code for a chunk of a single row."
  },
  {
   "property": "C110",
   "status": "partial",
   "theorems": [
    "Verif.SliceMetric.search_opt_iff",
    "Verif.SliceMetric.find_center_iff",
    "Verif.SliceMetric.find_center_bounds",
    "Verif.SliceMetric.find_center_edge",
    "Verif.SliceMetric.find_center_edge_refuted",
    "Verif.SliceMetric.find_center_affine",
    "Verif.SliceMetric.find_center_scale_partial",
    "Verif.SliceMetric.fbp_on_detector",
    "Verif.SliceMetric.entropy_perm",
    "Verif.SliceMetric.entropy_spec",
    "Verif.SliceMetric.sharpness_affine",
    "Verif.SliceMetric.sharpness_zero_iff",
    "Verif.SliceMetric.toy_search"
   ],
   "note": "False of the code near the detector edge: with the default step and radius a search within two pixels of an edge always raises. Exact real arithmetic; the scale invariance is proved for reconstructions that scale, instantiated with filtered back-projection without logarithm at zoom 1 and, in C162, with every method and zoom."
  },
  {
   "property": "C111",
   "status": "partial",
   "theorems": [
    "Verif.VisualCenter.visual_candidates_inside",
    "Verif.VisualCenter.visual_candidates",
    "Verif.VisualCenter.visual_names_distinct",
    "Verif.VisualCenter.visual_name_close",
    "Verif.VisualCenter.visual_slices_spec",
    "Verif.VisualCenter.visual_sinograms_spec",
    "Verif.VisualCenter.visual_zoom_inside_partial",
    "Verif.VisualCenter.visual_last_column_refuted",
    "Verif.VisualCenter.visual_zoom_refuted"
   ],
   "note": "False of the code: the last column as start gives no candidate, a zoom below one half can put a centre outside the zoomed detector."
  },
  {
   "property": "C112",
   "status": "partial",
   "theorems": [
    "Verif.VisualCenter.zoom_position",
    "Verif.VisualCenter.zoom_axis_partial",
    "Verif.VisualCenter.zoom_axis_refuted",
    "Verif.VisualCenter.visual_sinograms_spec",
    "Verif.VisualCenter.full_sinogram_top",
    "Verif.VisualCenter.full_sinogram_mirror_partial",
    "Verif.VisualCenter.full_sinogram_blur",
    "Verif.VisualCenter.full_sinogram_mirror_refuted"
   ],
   "note": "False of the code: with the default zoom 0.5 the label is off by half a pixel in the middle of 2560 columns; the mirrored half is blurred. Proved: the exact condition for the zoom, mirror image for rows linear in the position, the blur at pixel and half-pixel centres."
  },
  {
   "property": "C113",
   "status": "partial",
   "theorems": [
    "Verif.GpuShifts.gpu_1d_x",
    "Verif.GpuShifts.gpu_1d_y",
    "Verif.GpuShifts.shifts_x",
    "Verif.GpuShifts.hybrid_2d_eq_cpu",
    "Verif.GpuShifts.gpu_2d_close_partial",
    "Verif.GpuShifts.gpu_2d_edge_refuted",
    "Verif.GpuShifts.scan2_spec",
    "Verif.GpuShifts.peak2_interior"
   ],
   "note": "Exact agreement in two directions is false at the edge of the searched area (gpu_2d_edge_refuted). Exact real arithmetic (the kernels use float32); 2D inputs in two-direction mode are the subject of C161; norm_global in one direction is the subject of C165; margin 0 excluded (the CPU search then has an empty template)."
  },
  {
   "property": "C114",
   "status": "proved",
   "theorems": [
    "Verif.PhaseFft.unwrap_fft_same_phase",
    "Verif.PhaseFft.unwrap_fft_symmetric",
    "Verif.PhaseFft.unwrap_fft_constant",
    "Verif.PhaseFft.unwrap_fft_ok_iff",
    "Verif.PhaseFft.unwrap_iterative_same_phase",
    "Verif.PhaseFft.unwrap_iterative_symmetric"
   ],
   "note": "Exact arithmetic. Invariance under whole turns of the iterative version is for weight map None (with weights the first step multiplies the wrapped phase by the weight, so it is not claimed). A weight map is assumed to have the shape of the image; a caller's window with zeros divides by zero (inf in numpy, 0 here)."
  },
  {
   "property": "C115",
   "status": "partial",
   "theorems": [
    "Verif.PhaseFft.fc_surface_spec",
    "Verif.PhaseFft.fc_correction",
    "Verif.PhaseFft.fc_linear",
    "Verif.PhaseFft.fc_axis_gradients",
    "Verif.PhaseFft.sinMode_primitive",
    "Verif.PhaseFft.fc_mirror",
    "Verif.PhaseFft.fc_isotropic_iff",
    "Verif.PhaseFft.fc_constant_gradients",
    "Verif.PhaseFft.fc_planes_refuted"
   ],
   "note": "False of the code: rows and columns are treated alike only for square images (fc_isotropic_iff: vertical slopes are scaled by width/height otherwise), and the tilt of the surface is lost (fc_planes_refuted; the docstring only says the mean is). Everything else is proved; the cast to float32 is not modelled."
  },
  {
   "property": "C116",
   "status": "partial",
   "theorems": [
    "Verif.VerticalDriver.vertical_section_fbp",
    "Verif.VerticalDriver.vertical_section_raw",
    "Verif.VerticalDriver.vertical_section_even_refuted"
   ],
   "note": "Proved for odd widths; false of the code for even widths, where the vertical slice lies half a pixel off the pixel grid of the horizontal slices (vertical_section_even_refuted). Exact arithmetic; padding modes that copy samples; proj_stop within the stack."
  },
  {
   "property": "C117",
   "status": "proved",
   "theorems": [
    "Verif.VerticalDriver.vertical_single_ok",
    "Verif.VerticalDriver.vertical_single_value",
    "Verif.VerticalDriver.vertical_multiple_ok",
    "Verif.VerticalDriver.vertical_multiple_value",
    "Verif.VerticalDriver.vertical_different_ok",
    "Verif.VerticalDriver.vertical_different_value",
    "Verif.VerticalDriver.vertical_single_unique",
    "Verif.VerticalDriver.vertical_multiple_eq_single",
    "Verif.VerticalDriver.vertical_different_eq_single",
    "Verif.VerticalDriver.vertical_slices_cross",
    "Verif.VerticalDriver.vertical_slices_cross_right",
    "Verif.VerticalDriver.vertical_mask",
    "Verif.VerticalDriver.vertical_values"
   ],
   "note": "Exact arithmetic; natural crop margins; proj_stop within the stack; crossing slices for ramp_filter other than 'after' and without mask (a filter along the slice mixes points)."
  },
  {
   "property": "C118",
   "status": "partial",
   "theorems": [
    "Verif.Helical.helical_full_ok_iff",
    "Verif.Helical.helical_full_correct",
    "Verif.Helical.helical_full_complete",
    "Verif.Helical.helical_full_coarse",
    "Verif.Helical.helical_full_fine_fails",
    "Verif.Helical.helical_full_refuted"
   ],
   "note": "Success is proved when the stage moves at least one pixel per projection (helical_full_coarse), and characterised exactly otherwise (helical_full_ok_iff); false of the code for fine steps: with at most a third of a pixel per projection every call fails (helical_full_fine_fails, helical_full_refuted). Rows, angles and completeness are proved for every call that succeeds. Exact arithmetic, no blob mask."
  },
  {
   "property": "C119",
   "status": "partial",
   "theorems": [
    "Verif.Ndi.shift3_exact",
    "Verif.Ndi.shiftReflect_exact",
    "Verif.StackShift.find_stack_shifts",
    "Verif.StackShift.find_stack_shifts_recovers",
    "Verif.StackShift.align_stacks",
    "Verif.StackShift.align_scan",
    "Verif.StackShift.align_scan_pairs",
    "Verif.StackShift.find_sample_shifts",
    "Verif.StackShift.sample_alignment_offset",
    "Verif.StackShift.sample_alignment_partial",
    "Verif.StackShift.sample_alignment_refuted",
    "Verif.StackShift.exShift_exact"
   ],
   "note": "The last part is false of the code: the sample shifts are measured between images moved by their reference shifts but applied to the unmoved ones, so the object of image k stays displaced by s_k - s_0 (sample_alignment_offset, sample_alignment_refuted for all speckles and displacements); proved when all reference shifts are equal. ndimage.shift is a parameter, exact for whole pixels (proved of scipy's cubic splines, shift3_exact and shiftReflect_exact); fractional shifts not covered."
  },
  {
   "property": "C120",
   "status": "proved",
   "theorems": [
    "Verif.SpeckleTracking.shifts2d_refused",
    "Verif.SpeckleTracking.shifts2d_schedule",
    "Verif.SpeckleTracking.shifts2d_spec",
    "Verif.SpeckleTracking.shifts2d_recovers"
   ],
   "note": "Exact arithmetic. With norm=True the windows that have to be translated are those of the normalised images."
  },
  {
   "property": "C121",
   "status": "partial",
   "theorems": [
    "Verif.SpeckleTracking.tracking_spec",
    "Verif.SpeckleTracking.refill_spec",
    "Verif.SpeckleTracking.tracking_found_partial",
    "Verif.SpeckleTracking.tracking_frame_refuted",
    "Verif.SpeckleTracking.tracking_frame_cpu_refuted"
   ],
   "note": "False of the code for win_size >= 6 (the default is 7): the mirrored border is margin + 2 wide, the unsearched one margin + win_size//2, so a frame of zero shifts stays in the images whatever they show (tracking_frame_refuted, tracking_frame_cpu_refuted); proved for win_size <= 5."
  },
  {
   "property": "C122",
   "status": "partial",
   "theorems": [
    "Verif.Quality.quality_error",
    "Verif.Quality.quality_range",
    "Verif.Quality.quality_wrap_invariant",
    "Verif.Quality.quality_transpose",
    "Verif.Quality.quality_zero_iff",
    "Verif.Quality.quality_plane",
    "Verif.Quality.quality_size_one",
    "Verif.Quality.pixel_matters_iff",
    "Verif.Quality.quality_corner_refuted"
   ],
   "note": "Exact arithmetic. The last sentence is false of the code: the differences of the padded image are cut at the wrong end, so the bottom right pixel never enters the map (quality_corner_refuted); pixel_matters_iff shows it is the only one."
  },
  {
   "property": "C123",
   "status": "partial",
   "theorems": [
    "Verif.Quality.mask_error",
    "Verif.Quality.mask_spec",
    "Verif.Quality.mask_snr_mono",
    "Verif.Quality.mask_affine_partial",
    "Verif.Quality.mask_perm",
    "Verif.Quality.mask_constant_partial",
    "Verif.Quality.mask_four_refuted",
    "Verif.Quality.linZoom_isZoom",
    "Verif.Ndi.zoomList_isZoom",
    "Verif.Ndi.mask_affine_ndi_partial"
   ],
   "note": "Exact arithmetic; ndi.zoom is a parameter that keeps the requested length and commutes with affine maps (IsZoom, proved of scipy's cubic spline: zoomList_isZoom). False of the code for maps whose longer side has 4 pixels (mask_four_refuted: one point is left for the line fit, and a constant negative map is marked everywhere); mask_affine_partial and mask_constant_partial cover all other sizes."
  },
  {
   "property": "C124",
   "status": "partial",
   "theorems": [
    "Verif.Quality.normalize_features",
    "Verif.Quality.normalize_constant",
    "Verif.Quality.normalize_scale",
    "Verif.Quality.normalize_positive",
    "Verif.Quality.fft_constant_partial",
    "Verif.Quality.fft_scale",
    "Verif.Quality.fft_constant_refuted",
    "Verif.Quality.threshold_error",
    "Verif.Quality.threshold_spec",
    "Verif.Quality.threshold_affine",
    "Verif.Ndi.threshold_affine_ndi",
    "Verif.Ndi.savgolList_isSavgol",
    "Verif.Quality.threshold_perm",
    "Verif.Quality.binarize_affine"
   ],
   "note": "The Fourier version keeps constants only for even sizes (fft_constant_partial); for odd sizes it adds structure to constant images (fft_constant_refuted). ndi.zoom and savgol_filter are parameters that commute with affine maps (proved of scipy's functions: zoomList_isZoom, savgolList_isSavgol; threshold_affine_ndi)."
  },
  {
   "property": "C125",
   "status": "partial",
   "theorems": [
    "Verif.ForwardProj.sinogram_error",
    "Verif.ForwardProj.sinogram_axes",
    "Verif.ForwardProj.sinogram_sums",
    "Verif.ForwardProj.sinogram_edge",
    "Verif.ForwardProj.sinogram_half_turn",
    "Verif.ForwardProj.sinogram_mass",
    "Verif.ForwardProj.sinogram_linear",
    "Verif.Ndi.mapping5_exact",
    "Verif.Ndi.mapping5_linear",
    "Verif.Ndi.sinogram_sums_ndi",
    "Verif.Ndi.sinogram_mass_ndi",
    "Verif.Ndi.sinogram_linear_ndi",
    "Verif.ForwardProj.centre_odd_partial",
    "Verif.ForwardProj.centre_refuted",
    "Verif.ForwardProj.nearest_exact",
    "Verif.ForwardProj.sinogram_mass_even",
    "Verif.ForwardProj.sinogram_mass_padded_even",
    "Verif.ForwardProj.mass_refuted"
   ],
   "note": "Exact arithmetic; spline interpolation is a parameter (Exact, Linear; proved of scipy's quintic spline, mapping5_exact and mapping5_linear). The mirror axis is the middle of the row only for odd widths (centre_odd_partial); for even widths it is the pixel width/2, half a pixel off (centre_refuted). The sum of the unpadded rows is kept for odd sizes at every angle; for even sizes it is not (mass_refuted): at angle 0 the last row of the image counts twice (sinogram_mass_even), and with padding by zeros the row for pi/2 lacks the first row (sinogram_mass_padded_even)."
  },
  {
   "property": "C126",
   "status": "partial",
   "theorems": [
    "Verif.FlatOptions.divide_flatField",
    "Verif.FlatOptions.options_none",
    "Verif.FlatOptions.options_order",
    "Verif.FlatOptions.option_meaning",
    "Verif.FlatOptions.stack_eq_single",
    "Verif.FlatOptions.stack_pixels_partial",
    "Verif.FlatOptions.stack_refuted",
    "Verif.FlatOptions.broadcast_row"
   ],
   "note": "Exact arithmetic; the functions are parameters that keep the shape (KeepShape) and do not change their argument in place. The last sentence is proved for flat fields that nowhere equal the dark field (stack_eq_single); for flat fields with zeros it is false of the code, which replaces them by the mean of the whole flat image or of the row (stack_refuted); all other pixels agree (stack_pixels_partial). broadcast_row: a function that returns a single row is silently repeated."
  },
  {
   "property": "C127",
   "status": "partial",
   "theorems": [
    "Verif.Convert.pattern_meaning",
    "Verif.Convert.find_file_spec",
    "Verif.Convert.convert_spec",
    "Verif.Convert.convert_error",
    "Verif.Convert.convert_thin_refuted",
    "Verif.Convert.convert_perm",
    "Verif.Convert.round_trip_partial",
    "Verif.Convert.round_trip_refuted",
    "Verif.Convert.extract_crop_partial",
    "Verif.Convert.extract_crop_refuted",
    "Verif.Convert.extract_axes_partial",
    "Verif.Convert.fnmatch_any"
   ],
   "note": "Exact pixel values; patterns with * and ? only. The round trip holds up to 100000 slices (round_trip_partial) and is false beyond, where names no longer sort by number (round_trip_refuted). A crop larger than the image wraps around instead of leaving nothing (extract_crop_refuted). Later images of a single row or column are not refused but repeated (convert_thin_refuted)."
  },
  {
   "property": "C128",
   "status": "partial",
   "theorems": [
    "Verif.Convert.load_flat",
    "Verif.Convert.load_colour_partial",
    "Verif.Convert.load_grey",
    "Verif.Convert.load_colour_refuted",
    "Verif.Convert.bytes_error",
    "Verif.Convert.bytes_spec",
    "Verif.Convert.bytes_affine"
   ],
   "note": "Exact arithmetic. Colour images that have no more rows or columns than channels are averaged along the wrong axis (load_colour_refuted); larger ones are handled (load_colour_partial)."
  },
  {
   "property": "C129",
   "status": "proved",
   "theorems": [
    "Verif.External.angle_spec",
    "Verif.External.gridrec_error_iff",
    "Verif.External.gridrec_spec",
    "Verif.External.gridrec_chunk_eq_slices",
    "Verif.External.gridrec_outside_zero"
   ],
   "note": "tomopy.recon is a parameter (one sinogram to one square image). Exact arithmetic."
  },
  {
   "property": "C130",
   "status": "partial",
   "theorems": [
    "Verif.External.angle_spec",
    "Verif.External.method_spec",
    "Verif.External.method_refuted",
    "Verif.External.astra_error_iff",
    "Verif.External.astra_spec",
    "Verif.External.astra_chunk_eq_slices",
    "Verif.External.astra_center",
    "Verif.Ndi.shiftNearest_cols",
    "Verif.Ndi.astra_center_ndi"
   ],
   "note": "The astra algorithm is a parameter; centring is proved for shifts by whole columns, with scipy's spline in astra_center_ndi. False of the code: without a GPU some names that are not methods are accepted, among them ART_CUDA and F_CUDABP (method_refuted)."
  },
  {
   "property": "C131",
   "status": "proved",
   "theorems": [
    "Verif.CenterMetric.mask_spec",
    "Verif.CenterMetric.mask_bands",
    "Verif.CenterMetric.mask_line",
    "Verif.CenterMetric.mask_properties"
   ],
   "note": "Exact arithmetic: float64 rounding of the slope before the ceiling is not modelled."
  },
  {
   "property": "C132",
   "status": "partial",
   "theorems": [
    "Verif.CenterMetric.find_mirror_dsp_partial",
    "Verif.CenterMetric.find_mirror_refuted",
    "Verif.CenterMetric.metric_affine",
    "Verif.CenterMetric.metric_reverse",
    "Verif.CenterMetric.metric_mirror",
    "Verif.CenterMetric.search_affine",
    "Verif.CenterMetric.search_reverse",
    "Verif.CenterMetric.search_mirror",
    "Verif.CenterMetric.find_affine",
    "Verif.CenterMetric.find_reverse_partial",
    "Verif.CenterMetric.find_mirror_partial",
    "Verif.CenterMetric.find_range",
    "Verif.CenterMetric.linShift_isShift",
    "Verif.CenterMetric.mean3_isSmooth",
    "Verif.Ndi.cubicShift_int",
    "Verif.Ndi.cubicShift_isShift",
    "Verif.Ndi.gaussian_isSmooth",
    "Verif.Ndi.find_affine_ndi",
    "Verif.Ndi.find_reverse_ndi_partial",
    "Verif.Ndi.find_mirror_ndi_partial"
   ],
   "note": "ndi.shift and ndi.gaussian_filter are parameters with the laws IsShift, IsSmooth (proved of scipy's cubic spline shift and Gaussian filter, cubicShift_isShift and gaussian_isSmooth; find_*_ndi are without these assumptions). Exact arithmetic, metrics not rounded to float32. Missing: reversal of more than 1000 projections when the down-sampling leaves some out; mirroring with dsp=True is proved for detectors of at most 1000 columns when the best candidate is among those of both calls (find_mirror_dsp_partial: the fine search is centred half a pixel to the right); with several best candidates the claim is false of the code (find_mirror_refuted)."
  },
  {
   "property": "C133",
   "status": "proved",
   "theorems": [
    "Verif.Detect.detect_affine",
    "Verif.Detect.detect_mirror",
    "Verif.Detect.detect_reverse",
    "Verif.Detect.detect_start",
    "Verif.Detect.detect_turn",
    "Verif.Detect.detect_accepted",
    "Verif.Detect.detect_spec",
    "Verif.Detect.decide_spec",
    "Verif.Ndi.gaussian_isGauss"
   ],
   "note": "gaussian_filter is a parameter that keeps the size and commutes with a positive factor (IsGauss; proved of scipy's filter, gaussian_isGauss). Exact arithmetic."
  },
  {
   "property": "C134",
   "status": "partial",
   "theorems": [
    "Verif.WinPath.correct_literal_partial",
    "Verif.WinPath.correct_literal_refuted",
    "Verif.WinPath.correct_raw",
    "Verif.WinPath.get_path_spec"
   ],
   "note": "False of the code for names that start with a digit 0-7 (correct_literal_refuted); names starting with x, N, u, U or a quote are outside as well (correct_literal_partial)."
  },
  {
   "property": "C135",
   "status": "partial",
   "theorems": [
    "Verif.InputTypes.ext_spec",
    "Verif.InputTypes.shape_forms_partial",
    "Verif.InputTypes.folder_name_refuted",
    "Verif.InputTypes.output_spec",
    "Verif.InputTypes.shape_refused"
   ],
   "note": "False of the code for folders with a dot in the name (folder_name_refuted), which shape_forms_partial excludes; .hdf5 is refused although open_hdf_stream writes it (output_spec)."
  },
  {
   "property": "C136",
   "status": "proved",
   "theorems": [
    "Verif.InputTypes.load_multiple_spec",
    "Verif.InputTypes.load_multiple_indep",
    "Verif.InputTypes.load_multiple_ok_iff"
   ],
   "note": "load_image is a parameter; np.asarray of images of different sizes raises."
  },
  {
   "property": "C137",
   "status": "partial",
   "theorems": [
    "Verif.UmpaFull.umpa_full",
    "Verif.UmpaFull.umpa_full_best",
    "Verif.UmpaFull.exUm_wellPosed",
    "Verif.UmpaFull.umpa_chunk_independent",
    "Verif.UmpaFull.umpa_errors",
    "Verif.UmpaFull.umpa_chunk_refuted",
    "Verif.UmpaFull.window_good",
    "Verif.UmpaFull.chunkLoop_index"
   ],
   "note": "False of the code for some chunk sizes: chunk_size=1 always, and the default 100 at the minimum height, raise IndexError (umpa_chunk_refuted); umpa_full covers all others. Exact arithmetic; scipy correlate by its definition."
  },
  {
   "property": "C138",
   "status": "proved",
   "theorems": [
    "Verif.UmpaFull.umpa_gpu_close",
    "Verif.UmpaFull.umpa_recovers",
    "Verif.UmpaFull.gpuPixel_inner",
    "Verif.UmpaFull.gpuPixel_edge"
   ],
   "note": "Exact arithmetic (the kernel uses float32). At the edge of the searched area the two differ by up to half a pixel, as stated."
  },
  {
   "property": "C139",
   "status": "proved",
   "theorems": [
    "Verif.UmpaFull.umpa_scaled",
    "Verif.UmpaFull.locatePeak_scale",
    "Verif.UmpaFull.terms_scaled"
   ],
   "note": "Exact arithmetic. method poly_fit: the least-squares fit is a parameter whose coefficients scale with the data."
  },
  {
   "property": "C140",
   "status": "proved",
   "theorems": [
    "Verif.GlobalGpu.global_gpu_close",
    "Verif.GlobalGpu.global_gpu_recovers",
    "Verif.GlobalGpu.global_gpu_errors",
    "Verif.GlobalGpu.global_gpu_fallback",
    "Verif.GlobalGpu.global_value_lipschitz",
    "Verif.GlobalGpu.global_value_mono",
    "Verif.GlobalGpu.gpuPoint_cases",
    "Verif.GlobalGpu.allInside_of_shift"
   ],
   "note": "Exact arithmetic (the kernel uses float32)."
  },
  {
   "property": "C141",
   "status": "partial",
   "theorems": [
    "Verif.Phantom.lineTarget_small",
    "Verif.Phantom.lineTarget_spec",
    "Verif.Phantom.lineTarget_binary",
    "Verif.Phantom.lineTarget_symm",
    "Verif.Phantom.right_inside",
    "Verif.Phantom.left_inside",
    "Verif.Phantom.inked_in_disc",
    "Verif.Phantom.bars_spec",
    "Verif.Phantom.lineTarget_not_binary",
    "Verif.Phantom.left_outside"
   ],
   "note": "Binary image proved for 26 <= size < 1616, everything inside for size < 2178; refuted beyond (overlap at 1616, lines outside the image at 2420)."
  },
  {
   "property": "C142",
   "status": "partial",
   "theorems": [
    "Verif.Phantom.face_mirror",
    "Verif.Phantom.face_spec",
    "Verif.Phantom.face_one"
   ],
   "note": "Proved for every size >= 2; the range is refuted for size 1 (face_one). Exact arithmetic."
  },
  {
   "property": "C143",
   "status": "proved",
   "theorems": [
    "Verif.Phantom.addNoise_spec",
    "Verif.Phantom.addNoise_nonneg",
    "Verif.Phantom.addNoise_zero",
    "Verif.Phantom.addNoise_scale"
   ],
   "note": "Exact arithmetic; the random numbers are arbitrary reals."
  },
  {
   "property": "C144",
   "status": "proved",
   "theorems": [
    "Verif.Writer.restart",
    "Verif.Writer.stop_frame",
    "Verif.Writer.history_keeps",
    "Verif.Writer.restart_in_place_refuted"
   ],
   "note": "Tif folder to another tif folder, 2D images, exact pixel values; the range for rescaling may be given or computed. Reslicing: C147."
  },
  {
   "property": "C145",
   "status": "partial",
   "theorems": [
    "Verif.Writer.rescale_output",
    "Verif.Writer.downsample_output",
    "Verif.Writer.stale_slices_refuted"
   ],
   "note": "Contents and order proved; that nothing else is listed holds exactly if the folder had no other tif file; stale slices after overwrite=True refute the claim in general."
  },
  {
   "property": "C146",
   "status": "partial",
   "theorems": [
    "Verif.Writer.rescale_in_place",
    "Verif.Writer.in_place_names_refuted",
    "Verif.Writer.downsample_in_place_refuted"
   ],
   "note": "Proved for rescale_dataset on folders with algotom's own slice names; refuted for other names and for downsample_dataset."
  },
  {
   "property": "C147",
   "status": "proved",
   "theorems": [
    "Verif.ResliceRun.restart",
    "Verif.ResliceRun.stop_frame",
    "Verif.ResliceRun.restart_in_place_refuted"
   ],
   "note": "Tif input; tif or hdf output; rotation and rescaling are parameters. The input folder is neither the output folder nor in a folder the call removes; in place the claim is refuted."
  },
  {
   "property": "C148",
   "status": "partial",
   "theorems": [
    "Verif.ResliceRun.reslice_tif",
    "Verif.ResliceRun.reslice_hdf",
    "Verif.ResliceRun.below_iff",
    "Verif.ResliceRun.single_leaves_refuted"
   ],
   "note": "Proved for at least two images and two output slices, up to 100000 slices for tif output; hdf output removes the folder named like the output (C44). Refuted for one image: the call raises and leaves its folders."
  },
  {
   "property": "C149",
   "status": "proved",
   "theorems": [
    "Verif.Script.script_restart",
    "Verif.Script.script_overwrite",
    "Verif.Script.write_is_call",
    "Verif.Script.ordering_refuted"
   ],
   "note": "rescale, downsample and reslice from tif folders, and both converters. The condition on the order of the folders is needed (ordering_refuted)."
  },
  {
   "property": "C150",
   "status": "partial",
   "theorems": [
    "Verif.VerticalSearch.visual_files",
    "Verif.VerticalSearch.visual_schedule_free",
    "Verif.VerticalSearch.prepare_get",
    "Verif.VerticalSearch.mask_eq",
    "Verif.VerticalSearch.mask_left",
    "Verif.VerticalSearch.names_distinct",
    "Verif.VerticalSearch.mask_right_refuted",
    "Verif.VerticalSearch.visual_stop_refuted",
    "Verif.VerticalSearch.names_collide_refuted"
   ],
   "note": "False in three ways: candidates past stop may be off the detector, names collide for steps below 0.005, right of the middle of the detector the mask keeps columns outside the field of view of the later candidates."
  },
  {
   "property": "C151",
   "status": "proved",
   "theorems": [
    "Verif.VerticalSearch.search_best",
    "Verif.VerticalSearch.metric_values",
    "Verif.VerticalSearch.search_schedule_free",
    "Verif.VerticalSearch.search_error"
   ],
   "note": "Over the reals; the Gaussian filter is a parameter. Integer candidates: C49."
  },
  {
   "property": "C152",
   "status": "proved",
   "theorems": [
    "Verif.VerticalSearch.autocorrelation_eq",
    "Verif.VerticalSearch.autocorrelation_laws",
    "Verif.VerticalSearch.autocorrelation_perm",
    "Verif.VerticalSearch.autocorrelation_error"
   ],
   "note": "Over the reals; scipy.fft as the DFT."
  },
  {
   "property": "C153",
   "status": "proved",
   "theorems": [
    "Verif.ConvertRun.convert_dataset",
    "Verif.ConvertRun.convert_frame",
    "Verif.ConvertRun.convert_restart",
    "Verif.ConvertRun.convert_in_place_refuted"
   ],
   "note": "2D images; hdf file with one dataset. The condition on the name of the output is needed (convert_in_place_refuted)."
  },
  {
   "property": "C154",
   "status": "proved",
   "theorems": [
    "Verif.ConvertRun.extract_folder",
    "Verif.ConvertRun.extract_error",
    "Verif.ConvertRun.extract_frame",
    "Verif.ConvertRun.extract_restart",
    "Verif.ConvertRun.disk_round_trip"
   ],
   "note": "Output folder and names apart from the input file."
  },
  {
   "property": "C155",
   "status": "partial",
   "theorems": [
    "Verif.Overlap.corr_spec",
    "Verif.Overlap.corr_affine",
    "Verif.Overlap.metric_spec",
    "Verif.Overlap.metric_zero",
    "Verif.Overlap.curvature_zero",
    "Verif.Overlap.curvature_nan",
    "Verif.Overlap.find_overlap_exact",
    "Verif.Overlap.find_center_360_exact",
    "Verif.Overlap.find_center_360_mirror",
    "Verif.Overlap.overlap_schedule_free",
    "Verif.Overlap.overlap_serial_total",
    "Verif.Overlap.find_overlap_gain",
    "Verif.Overlap.find_overlap_auto",
    "Verif.Overlap.find_overlap_multiple_spec",
    "Verif.Overlap.find_center_projection_exact_partial",
    "Verif.Overlap.constant_window_refuted"
   ],
   "note": "False of images with a constant window (constant_window_refuted); with side=None denoise and norm are exchanged (find_overlap_auto, C22); find_center_projection is exact up to its half-pixel convention, on the side of larger curvature. Exact real arithmetic; ndi.gaussian_filter is a parameter."
  },
  {
   "property": "C156",
   "status": "partial",
   "theorems": [
    "Verif.Overlap.chunk_rows",
    "Verif.Overlap.chunk_height_spec",
    "Verif.Overlap.chunk_middle",
    "Verif.Overlap.chunk_exact",
    "Verif.Overlap.projection_rows_only",
    "Verif.Overlap.chunk_start_partial",
    "Verif.Overlap.chunk_start_refuted"
   ],
   "note": "False of the code for a start row below the middle chunk (refuted)."
  },
  {
   "property": "C157",
   "status": "proved",
   "theorems": [
    "Verif.Wedge180.to360_top",
    "Verif.Wedge180.to360_mirror",
    "Verif.Wedge180.to360_ideal",
    "Verif.Wedge180.to360_const",
    "Verif.Wedge180.wedge_errors",
    "Verif.Wedge180.wedge_refused",
    "Verif.Wedge180.wedge_ones",
    "Verif.Wedge180.wedge_const",
    "Verif.Wedge180.wedge_linear",
    "Verif.Wedge180.wedge_180",
    "Verif.Ndi.dfiSpline_keeps"
   ],
   "note": "Exact real arithmetic; scipy.ndimage.shift is an interpolation parameter (exact and constant-preserving, proved of scipy's cubic spline: dfiSpline_exact, dfiSpline_keeps); a half-integer shift is outside the claim on mirroring."
  },
  {
   "property": "C158",
   "status": "proved",
   "theorems": [
    "Verif.JoinMany.join_many_layout",
    "Verif.JoinMany.join_many_ok",
    "Verif.JoinMany.join_many_total",
    "Verif.JoinMany.factor_meets",
    "Verif.JoinMany.join_width",
    "Verif.JoinMany.join_whole"
   ],
   "note": "Exact arithmetic; layout for side 1 and whole gaps; success and width for all non-negative joint widths and sides."
  },
  {
   "property": "C159",
   "status": "proved",
   "theorems": [
    "Verif.PhaseCorr.find_shift_exact",
    "Verif.PhaseCorr.noRepeat_of_peak",
    "Verif.PhaseCorr.find_shift_bounded",
    "Verif.PhaseCorr.find_shift_gain",
    "Verif.PhaseCorr.find_shift_swap",
    "Verif.PhaseCorr.find_shift_error"
   ],
   "note": "Exact arithmetic, fft2/ifft2 as the transforms they define; whole-pixel displacements. Broadcasting of images with one row or column counts as an error in the model."
  },
  {
   "property": "C160",
   "status": "proved",
   "theorems": [
    "Verif.PhaseCorr.find_center_exact"
   ],
   "note": "As C159."
  },
  {
   "property": "C161",
   "status": "partial",
   "theorems": [
    "Verif.GpuImage.image_refused",
    "Verif.GpuImage.image_whole",
    "Verif.GpuImage.image_chunk_free",
    "Verif.GpuImage.image_close",
    "Verif.GpuImage.image_recovers",
    "Verif.GpuImage.find_local_shifts_gpu",
    "Verif.GpuImage.dispatch",
    "Verif.GpuImage.image_index_error",
    "Verif.GpuImage.image_chunk_refuted",
    "Verif.GpuImage.image_norm_refuted"
   ],
   "note": "Exact arithmetic. False of the code in two cases: norm=True normalises each chunk by its own sums, so the shifts depend on chunk_size (image_norm_refuted); an explicit chunk_size raises IndexError if it makes more chunks than searched rows, e.g. always on images of win_size + 2*margin rows (image_index_error, image_chunk_refuted). Proved for norm=False and for chunk_size=None otherwise."
  },
  {
   "property": "C162",
   "status": "partial",
   "theorems": [
    "Verif.SliceMethod.method_used",
    "Verif.SliceMethod.unknown_method_refuted",
    "Verif.SliceMethod.accepted_iff",
    "Verif.SliceMethod.image_shape",
    "Verif.SliceMethod.on_detector",
    "Verif.SliceMethod.visual_complete",
    "Verif.SliceMethod.reconstruct_affine",
    "Verif.SliceMethod.find_center_scale",
    "Verif.SliceMethod.exE_ok"
   ],
   "note": "False of the code for names that are not documented: they are not refused but run as direct Fourier inversion (unknown_method_refuted). Exact real arithmetic; tomopy, astra and scipy's interpolation are parameters."
  },
  {
   "property": "C163",
   "status": "partial",
   "theorems": [
    "Verif.Stitch.stitch_fraction",
    "Verif.Stitch.join_fraction",
    "Verif.Stitch.stitch_fraction_refuted",
    "Verif.Stitch.join_fraction_refuted",
    "Verif.Stitch.linShift_exact"
   ],
   "note": "False of the code for every fractional width and every scene with a gradient: stitch_image displaces the left part by the fraction s and the right part by nothing (misaligned by |s|, as much as without the shift), join_image displaces them by s and -2s (misaligned by 3|s|). The offsets are proved exactly; the aligned case is whole widths (C15, C17, C158)."
  },
  {
   "property": "C164",
   "status": "proved",
   "theorems": [
    "Verif.ParSlices.parallel_errors",
    "Verif.ParSlices.outcome_spec",
    "Verif.ParSlices.outcome_exists"
   ],
   "note": "joblib is modelled so that after a task has failed it may go on with others for any time and raise any of the exceptions."
  },
  {
   "property": "C165",
   "status": "partial",
   "theorems": [
    "Verif.GpuShifts.global_x",
    "Verif.GpuShifts.global_y",
    "Verif.GpuShifts.global_gpu",
    "Verif.GpuShifts.global_2d",
    "Verif.GpuShifts.global_norm_refuted"
   ],
   "note": "Proved with norm=False in one direction and with any norm in two directions (stacks on the CPU; the GPU in two directions is in C113). False with the default norm=True in one direction (global_norm_refuted): rows are then divided by sums of rows and columns, which does not commute with subtracting the minimum."
  },
  {
   "property": "C166",
   "status": "proved",
   "theorems": [
    "Verif.Correction.unwarp_pixel",
    "Verif.Correction.bilinear_spec",
    "Verif.Correction.unwarp_sinogram_rows",
    "Verif.Correction.unwarp_sinogram_all",
    "Verif.Correction.unwarp_one"
   ],
   "note": "Exact real arithmetic (coordinates are rounded to float32 in the code)."
  },
  {
   "property": "C167",
   "status": "partial",
   "theorems": [
    "Verif.StripeFilters.fitted_spec",
    "Verif.StripeFilters.savgol_fit",
    "Verif.StripeFilters.ls_exists",
    "Verif.StripeFilters.fitted_poly_partial",
    "Verif.StripeFilters.fitted_constant",
    "Verif.StripeFilters.fitted_ramp_refuted"
   ],
   "note": "The least-squares statement is proved for every pixel. Polynomials are reproduced where the window lies inside the line, constants everywhere; near the ends this is false of the code (fitted_ramp_refuted: with num_chunk=1 only the middle of the line is exact), because the window is mirrored. scipy's savgol_coeffs is modelled as the solution of smallest norm of its linear system."
  },
  {
   "property": "C168",
   "status": "partial",
   "theorems": [
    "Verif.StackDispatch.no_gpu",
    "Verif.StackDispatch.one_direction",
    "Verif.StackDispatch.hybrid",
    "Verif.StackDispatch.two_directions_partial",
    "Verif.StackDispatch.hybrid_dim",
    "Verif.StackDispatch.hybrid_one_direction_refuted"
   ],
   "note": "False of the code for gpu='hybrid' with dim=1: dim is ignored and the search runs in two directions (hybrid_dim, hybrid_one_direction_refuted). Everything else proved; CPU and GPU in two directions differ by up to half a pixel where the best match lies at the edge of the searched area (C113). Exact arithmetic."
  },
  {
   "property": "C169",
   "status": "partial",
   "theorems": [
    "Verif.Pywt.decompose_reconstruct",
    "Verif.Pywt.reconstruct_shape",
    "Verif.Pywt.reconstruct_shape_refuted",
    "Verif.Pywt.decompose_constant",
    "Verif.Pywt.ignore_complement",
    "Verif.Pywt.haar_good",
    "Verif.Pywt.db2_good"
   ],
   "note": "The values come back for every size; the shape does not for odd sides, which come back one pixel longer (reconstruct_shape says exactly when, reconstruct_shape_refuted gives a case). PyWavelets (mode symmetric) is modelled from its documentation, with exact real arithmetic; hypothesis on the filters met by haar and db2 (haar_good, db2_good)."
  },
  {
   "property": "C170",
   "status": "partial",
   "theorems": [
    "Verif.StripeFilters.sorting_unit",
    "Verif.StripeFilters.filtering_unit",
    "Verif.StripeFilters.filtering2d_unit",
    "Verif.StripeFilters.normalization_unit",
    "Verif.StripeFilters.large_unit",
    "Verif.StripeFilters.dead_unit",
    "Verif.StripeFilters.all_unit",
    "Verif.StripeFilters.fft_unit",
    "Verif.StripeFilters.wavelet_unit",
    "Verif.Pywt.pywt_unit",
    "Verif.StripeFilters.median_homog",
    "Verif.StripeFilters.signFilterLine_homog",
    "Verif.StripeFilters.interpolation_unit_partial",
    "Verif.StripeFilters.interpolation_zero_mean",
    "Verif.StripeFilters.interpolation_unit_refuted",
    "Verif.StripeFilters.zinger_unit_partial",
    "Verif.StripeFilters.zinger_unit_refuted"
   ],
   "note": "True of ten methods for all inputs. False of remove_stripe_based_interpolation (norm=True) if a column has zero trimmed mean: the zero is replaced by 1 before dividing, so the result scales with the square of the factor; false of remove_zinger if the neighbours of a pixel have zero mean, for the same reason. Both are proved for data without such zeros, and refuted with them. Smoothing filters enter as homogeneous operators (proved for the median filter, the Gaussian line filter and PyWavelets' transforms); the argsort depends on the order only. Fitting is C93."
  },
  {
   "property": "C171",
   "status": "partial",
   "theorems": [
    "Verif.StripeFilters.sorted_order_free",
    "Verif.StripeFilters.sorting_order",
    "Verif.StripeFilters.fft_order",
    "Verif.StripeFilters.wavelet_order",
    "Verif.StripeFilters.normalization_sort_order",
    "Verif.StripeFilters.fitting_order",
    "Verif.StripeFilters.normalization_order",
    "Verif.StripeFilters.large_order",
    "Verif.StripeFilters.interpolation_order",
    "Verif.StripeFilters.sorting_order_refuted"
   ],
   "note": "Proved for every column without repeated values (interpolation and unsorted normalization: for every column). False with repeated values, for whatever sorting algorithm: sorting_order_refuted. Smoothing filters, wavelets and the spline are parameters of which only the shape is used."
  },
  {
   "property": "C172",
   "status": "partial",
   "theorems": [
    "Verif.StripeFilters.sorting_mirror",
    "Verif.StripeFilters.normalization_mirror",
    "Verif.StripeFilters.large_mirror",
    "Verif.StripeFilters.dead_mirror",
    "Verif.StripeFilters.all_mirror",
    "Verif.StripeFilters.interpolation_mirror",
    "Verif.StripeFilters.zinger_mirror",
    "Verif.StripeFilters.median_mirror",
    "Verif.StripeFilters.medianLine_mirror",
    "Verif.StripeFilters.sorting_mirror_refuted",
    "Verif.StripeFilters.filtering_mirror",
    "Verif.StripeFilters.fft_mirror_partial",
    "Verif.StripeFilters.fft_mirror_refuted"
   ],
   "note": "Proved for median filters of odd size (and every smoothing filter that treats left and right alike); false of the code for an even window size, whatever the sorting algorithm: sorting_mirror_refuted. The FFT-based method treats left and right alike if the number of columns or of projections is odd (fft_mirror_partial, v at most half the padded height), and not otherwise (fft_mirror_refuted, 4 x 4). The sorting algorithm depends on the values of a column only (as numpy's does). Splines of degree above 1, the 1D smoothing filters and the choice of zinger clusters are parameters that treat left and right alike."
  },
  {
   "property": "C173",
   "status": "proved",
   "theorems": [
    "Verif.StripeFilters.sorting_increasing",
    "Verif.StripeFilters.sorting_decreasing",
    "Verif.StripeFilters.sorting_log"
   ],
   "note": "Real numbers instead of float32; the sorting algorithm is any one that returns a sorting permutation. Columns with repeated values are excluded in the statement: there the order of ties is the algorithm's choice."
  },
  {
   "property": "C174",
   "status": "partial",
   "theorems": [
    "Verif.StripeFilters.sorting_offset",
    "Verif.StripeFilters.filtering_profile",
    "Verif.StripeFilters.filtering_offset_partial",
    "Verif.StripeFilters.filtering_offset_refuted",
    "Verif.StripeFilters.normalization_profile",
    "Verif.StripeFilters.normalization_offset",
    "Verif.StripeFilters.regularization_profile",
    "Verif.StripeFilters.regularization_offset",
    "Verif.StripeFilters.regularization_factor",
    "Verif.StripeFilters.wavelet_profile",
    "Verif.StripeFilters.wavelet_offset",
    "Verif.StripeFilters.median_rowFilter",
    "Verif.StripeFilters.gauss_lineFilter",
    "Verif.StripeFilters.twod_offset_partial",
    "Verif.StripeFilters.regularization_factor_sorted"
   ],
   "note": "Refuted for filtering with sorting and an odd number of projections (filtering_offset_refuted: three projections, every sigma and sorting algorithm); proved for an even number; the 2D filtering and sorting method is proved for even numbers of projections and columns. The smoothing filter is any filter that commutes with offsets of lines; this is proved for the median and scipy's Gaussian filter. The FFT-based method takes a modulus and is not included; two-dimensional median windows (dim=2) are not included. Real numbers instead of float32."
  },
  {
   "property": "C175",
   "status": "proved",
   "theorems": [
    "Verif.FlatOptions.flat_field_gain",
    "Verif.FlatOptions.flat_field_rearrange_image",
    "Verif.FlatOptions.flat_field_rearrange_sinogram",
    "Verif.FlatOptions.flat_field_rearrange_stack",
    "Verif.FlatOptions.flat_field_gain_balanced"
   ],
   "note": "Exact arithmetic; floating-point arrays in the gain part (the default ratio is 1.0). The sum of flat minus dark must not vanish (flat_field_gain_balanced)."
  },
  {
   "property": "C176",
   "status": "proved",
   "theorems": [
    "Verif.Fourier.fresnel_overlay",
    "Verif.Fourier.fresnel_exposure",
    "Verif.Fourier.fresnel_orientation",
    "Verif.Fourier.fresnel_rows",
    "Verif.Fourier.mtf_orientation",
    "Verif.Fourier.mtf_linear",
    "Verif.Fourier.separate_orientation",
    "Verif.Fourier.gaussian_orientation",
    "Verif.Fourier.wedge_orientation"
   ],
   "note": "Exact arithmetic; the window of make_fresnel_window (no window given by the caller). With negative ratios the window may vanish, which numpy turns into inf. mtf_orientation is for windows of the size of the image (a larger window is aligned with the top left corner)."
  },
  {
   "property": "C177",
   "status": "proved",
   "theorems": [
    "Verif.Fourier.wedge_start",
    "Verif.Fourier.wedge_linear"
   ],
   "note": "Exact arithmetic; sino_type 360 and real masks of the right shape (errors and 180-degree sinograms: C157; shapes and constants: C34)."
  }
 ]
}