{"id": "C01", "title": "Parallel slice processing equals the serial map", "statement": "parallel_process_slices(data, f, ..., axis=a, ncore=n) returns the 3D array whose slice i along axis a is f applied to slice i of the input, for every worker count and every order in which workers pick up and finish tasks; the number of slices along a is unchanged and no slice is dropped, duplicated or permuted.", "quantifier": "every 3D array, every per-slice function, axis in {0,1,2}, every worker count >= 1 and every interleaving of task start/finish events", "why_tests_cant": "interleavings of pool workers are unbounded; a test run sees one schedule on one machine", "anchors": [{"file": "algotom/util/utility.py", "symbol": "parallel_process_slices"}]}
{"id": "C02", "title": "CPU back-projection is independent of thread interleaving", "statement": "The multi-threaded CPU back-projection used by fbp_reconstruction/bpf_reconstruction gives, for every interleaving of its threads, the same image as a sequential sum over all projection angles.", "quantifier": "every sinogram, every number of angles, every assignment of angles to threads and every interleaving of their loads and stores", "why_tests_cant": "a lost update needs one particular interleaving of two read-modify-write sequences; tests almost never hit it and cannot rule it out", "anchors": [{"file": "algotom/rec/reconstruction.py", "symbol": "back_projection_cpu"}]}
{"id": "C03", "title": "GPU back-projection kernels are schedule independent and equal the angle sum", "statement": "The GPU back-projection kernels (single slice and chunk of slices) give, for every order in which the grid's threads execute, at every pixel inside the image exactly the sum over angles of the interpolated (with edge_pad: edge-extended) projection value, and the chunk kernel equals the stack of single-slice results; threads beyond the image write nothing.", "quantifier": "every sinogram chunk, image size, grid size covering the image, and every execution order of the threads", "why_tests_cant": "thread schedules on a GPU cannot be enumerated by tests", "anchors": [{"file": "algotom/rec/reconstruction.py", "symbol": "back_projection_gpu"}, {"file": "algotom/rec/reconstruction.py", "symbol": "back_projection_gpu_chunk"}]}
{"id": "C04", "title": "Back-projection reads only inside the detector", "statement": "During back-projection every interpolation access touches detector columns in [0, width-1]: a pixel whose detector position is outside contributes nothing and no index is negative or past the end, for every centre of rotation and angle list.", "quantifier": "all image sizes, centres, angles and pixel positions (all real detector positions)", "why_tests_cant": "an out-of-bounds read in compiled numba code is silent; only a proof over all positions excludes it", "anchors": [{"file": "algotom/rec/reconstruction.py", "symbol": "back_projection_cpu"}, {"file": "algotom/rec/reconstruction.py", "symbol": "back_projection_gpu"}]}
{"id": "C05", "title": "sort_forward / sort_backward round trip", "statement": "For any 2D array and either axis, sort_backward applied to the two outputs of sort_forward returns the original array exactly, whatever order the (unstable) argsort gives to equal values; the sorted output is non-decreasing along the axis and each line is a permutation of the input line.", "quantifier": "every 2D array of totally ordered values (ties included), axis 0 and 1, every admissible result of argsort", "why_tests_cant": "tie-breaking of the unstable sort is unspecified; tests see one of exponentially many permutations", "anchors": [{"file": "algotom/util/utility.py", "symbol": "sort_forward"}, {"file": "algotom/util/utility.py", "symbol": "sort_backward"}]}
{"id": "C06", "title": "Sorting-based stripe removal only re-ranks", "statement": "remove_stripe_based_sorting replaces the value of rank r in each column by the smoothed sorted value of rank r of the same column, back at the original position. Hence with a smoothing filter that leaves the sorted image unchanged the sinogram is returned unchanged (in particular when all columns hold the same multiset of values and a horizontal median filter is used), and pixel ranks inside a column are preserved whenever the filtered columns are still non-decreasing.", "quantifier": "all sinograms, all window sizes, every tie-breaking of the sort", "why_tests_cant": "universal over data and tie-breaking", "anchors": [{"file": "algotom/prep/removal.py", "symbol": "remove_stripe_based_sorting"}]}
{"id": "C07", "title": "Non-overwriting file names are fresh", "statement": "make_file_name returns a path at which nothing exists: the given path when free, otherwise the same stem with a numeric suffix; the search always terminates. save_image(..., overwrite=False) therefore never changes an existing file.", "quantifier": "every finite file system content and every requested path", "why_tests_cant": "termination and freshness depend on the whole directory state, which tests only sample", "anchors": [{"file": "algotom/io/loadersaver.py", "symbol": "make_file_name"}, {"file": "algotom/io/loadersaver.py", "symbol": "save_image"}]}
{"id": "C08", "title": "make_folder_name gives a new folder name", "statement": "make_folder_name returns, after finitely many steps, a name prefix_NNNN (zero padded to the requested width) for which no folder exists yet, NNNN being the smallest free index counted from one past the number of existing entries with that prefix.", "quantifier": "every finite set of existing entries, every prefix and zero-prefix width", "why_tests_cant": "depends on the whole directory state", "anchors": [{"file": "algotom/io/loadersaver.py", "symbol": "make_folder_name"}]}
{"id": "C09", "title": "save_image_multiple writes one distinct file per slice", "statement": "save_image_multiple on a stack of n images writes n pairwise different file names, so each saved slice survives and file k holds slice k.", "quantifier": "every number of images n, start index and prefix", "why_tests_cant": "the failure starts only at very large indices that no test would write to disk", "anchors": [{"file": "algotom/io/loadersaver.py", "symbol": "save_image_multiple"}]}
{"id": "C10", "title": "extract_tif_from_hdf / tif stacks keep slice order", "statement": "File names written by extract_tif_from_hdf are pairwise distinct, and sorting them as strings gives the numeric slice order (so converting back with convert_tif_to_hdf restores the order).", "quantifier": "every dataset length and index range", "why_tests_cant": "the string/number order mismatch appears only beyond 5 digits", "anchors": [{"file": "algotom/io/converter.py", "symbol": "extract_tif_from_hdf"}, {"file": "algotom/io/converter.py", "symbol": "convert_tif_to_hdf"}]}
{"id": "C11", "title": "extract_tif_from_hdf extracts exactly the requested slices", "statement": "With index=(start, stop, step) exactly the slices start, start+step, ... < stop of the chosen axis are written; with an integer index exactly that slice, Python style, is written; None means all slices.", "quantifier": "every dataset shape, axis, and index specification (including negative)", "why_tests_cant": "all combinations of start/stop/step and axis lengths", "anchors": [{"file": "algotom/io/converter.py", "symbol": "extract_tif_from_hdf"}]}
{"id": "C12", "title": "get_tif_stack index selection", "statement": "get_tif_stack(base, idx=...) returns the image of the sorted file list at the requested position, with Python semantics for a negative position, and reports an error for a position outside the list.", "quantifier": "every number of files and every integer index", "why_tests_cant": "all indices incl. out-of-range ones", "anchors": [{"file": "algotom/io/loadersaver.py", "symbol": "get_tif_stack"}]}
{"id": "C13", "title": "Dark/flat normalisation of references", "statement": "The flat/dark helper used by the radiograph/sinogram loaders averages a 3D stack of references along axis 0 and leaves a 2D reference unchanged, for every array shape.", "quantifier": "all reference arrays of 2 or 3 dimensions, including images with exactly 3 rows", "why_tests_cant": "only one unusual size triggers the failure", "anchors": [{"file": "algotom/io/loadersaver.py", "symbol": "__check_dark_flat_field"}]}
{"id": "C14", "title": "Zero-division guard", "statement": "After the speckle-stack loader's fix_zero_div step non-zero entries are unchanged, zero entries become the mean of the stack, and no entry of the stack is zero, so dividing by the result is always defined.", "quantifier": "every array", "why_tests_cant": "universal over arrays", "anchors": [{"file": "algotom/io/loadersaver.py", "symbol": "__get_ref_sam_stacks_dls"}]}
{"id": "C15", "title": "Image stitching blends consistently", "statement": "stitch_image on two images with overlap v returns an image of width w1+w2-v whose non-overlapping parts are the inputs' own columns, whose overlap is a convex combination (weights in [0,1] summing to one) of the two inputs; if both inputs are views of one panorama the panorama is returned exactly.", "quantifier": "all image sizes, all whole overlaps from 1 to min(w1,w2) (fractions: see the claim on overlaps that are not whole numbers), both sides, with norm=False and a total weight of one", "why_tests_cant": "all sizes/overlaps", "anchors": [{"file": "algotom/prep/conversion.py", "symbol": "stitch_image"}, {"file": "algotom/prep/conversion.py", "symbol": "make_weight_matrix"}]}
{"id": "C16", "title": "stitch_image_multiple honours its options", "statement": "stitch_image_multiple(list, overlaps, norm=False) stitches without intensity normalisation, i.e. equals the left fold of stitch_image(..., norm=False).", "quantifier": "all lists of images and overlaps, both values of norm and total_width", "why_tests_cant": "argument mix-ups are value dependent", "anchors": [{"file": "algotom/prep/conversion.py", "symbol": "stitch_image_multiple"}]}
{"id": "C17", "title": "join_image layout", "statement": "join_image places two images side by side with a gap of joint_width-like size: the result has width w1+w2+gap, the columns away from the seam are the inputs' own columns in order, and the seam (last two columns of the left image, the gap, first three columns of the right one) is filled linearly between its two neighbouring columns; with norm the second image is scaled so that the three-column means next to the seam agree.", "quantifier": "all sizes and whole gaps, both sides", "why_tests_cant": "all sizes/gaps", "anchors": [{"file": "algotom/prep/conversion.py", "symbol": "join_image"}]}
{"id": "C18", "title": "360-to-180 degree conversion keeps geometry", "statement": "convert_sinogram_360_to_180 returns n//2+1 rows and a width and centre such that the returned centre is the middle (W-1)/2 of the stitched sinogram; output row i stitches row i with the mirrored row i+n-n//2-1 (exactly the opposite one for odd n), and an ideal 360-degree scan of a wide sinogram is reproduced.", "quantifier": "all sinogram sizes and centres", "why_tests_cant": "all sizes and centres", "anchors": [{"file": "algotom/prep/conversion.py", "symbol": "convert_sinogram_360_to_180"}]}
{"id": "C19", "title": "extend_sinogram complements", "statement": "extend_sinogram: width becomes 2n-overlap, rows are unchanged, the pad is zero, and for each ray the two copies' weights add to one, so that back-projecting over 360 degrees counts each measured ray exactly once.", "quantifier": "all sinogram sizes, all centres (both sides)", "why_tests_cant": "all sizes and centres", "anchors": [{"file": "algotom/prep/conversion.py", "symbol": "extend_sinogram"}]}
{"id": "C20", "title": "Helical sinogram rows stay on the detector", "statement": "generate_sinogram_helical_scan at an admissible index only reads detector rows between 0 and height-1, linear interpolation weights are in [0,1] and sum to one, and the angles returned correspond to the projections used.", "quantifier": "all scan geometries (rational pitch, pixel size, number of projections, heights) and all admissible slice indices", "why_tests_cant": "continuous geometry parameters", "anchors": [{"file": "algotom/prep/conversion.py", "symbol": "generate_sinogram_helical_scan"}, {"file": "algotom/prep/calculation.py", "symbol": "calculate_maximum_index"}]}
{"id": "C21", "title": "Centre from overlap is the mirror axis", "statement": "If the second half of a 360-degree scan is the mirror of the first about detector position c, find_center_360/find_center_projection convert the overlap found into exactly c.", "quantifier": "all widths, overlaps and centres on either side", "why_tests_cant": "all geometries", "anchors": [{"file": "algotom/prep/calculation.py", "symbol": "find_center_360"}, {"file": "algotom/prep/calculation.py", "symbol": "find_center_projection"}]}
{"id": "C22", "title": "find_overlap forwards its options", "statement": "find_overlap(mat1, mat2, win_width, side=None, denoise=d, norm=n) evaluates each side with exactly the same denoise/norm options as with side given, and returns the better one.", "quantifier": "all images and option values", "why_tests_cant": "argument order bugs are value dependent", "anchors": [{"file": "algotom/prep/calculation.py", "symbol": "find_overlap"}]}
{"id": "C23", "title": "Overlap found equals the true overlap", "statement": "For either side, the overlap size and offset reported for the best matching window position are the geometric overlap of the two images at that position, for every window width the function accepts.", "quantifier": "all image widths, window widths and match positions", "why_tests_cant": "off-by-one only for particular parities", "anchors": [{"file": "algotom/prep/calculation.py", "symbol": "find_overlap"}, {"file": "algotom/prep/calculation.py", "symbol": "search_overlap"}]}
{"id": "C24", "title": "Centre search returns a minimiser in range", "statement": "The coarse and fine search of find_center_vo return candidates inside the requested interval at which the metric is minimal over all candidates tried, independent of ncore.", "quantifier": "all metrics, start/stop/step and search radii", "why_tests_cant": "all metrics and ranges", "anchors": [{"file": "algotom/prep/calculation.py", "symbol": "coarse_search_cor"}, {"file": "algotom/prep/calculation.py", "symbol": "fine_search_cor"}, {"file": "algotom/prep/calculation.py", "symbol": "find_center_vo"}]}
{"id": "C25", "title": "Phase correlation wraps to signed shifts", "statement": "find_shift_based_phase_correlation maps the peak position of the cyclic correlation to the signed shift of smallest magnitude congruent to it.", "quantifier": "all image sizes and peak positions", "why_tests_cant": "all sizes", "anchors": [{"file": "algotom/prep/calculation.py", "symbol": "find_shift_based_phase_correlation"}]}
{"id": "C26", "title": "Normalisation-based stripe removal equalises column means", "statement": "After remove_stripe_based_normalization the mean of every column within every chunk of rows equals the smoothed column mean; rows are partitioned into num_chunk consecutive chunks and with sigma such that smoothing is the identity nothing changes.", "quantifier": "all sinograms, smoothing filters and 1<=num_chunk<=rows", "why_tests_cant": "all data", "anchors": [{"file": "algotom/prep/removal.py", "symbol": "remove_stripe_based_normalization"}]}
{"id": "C27", "title": "remove_zinger only touches outliers and never brightens", "statement": "remove_zinger leaves every pixel that is not above threshold unchanged, and (for non-negative data and threshold) each changed pixel is replaced by a value not larger than before: the mean of its 8 neighbours at the given distance, wrapping around the borders (or 1 when that mean is zero).", "quantifier": "all images, thresholds and sizes", "why_tests_cant": "all data", "anchors": [{"file": "algotom/prep/removal.py", "symbol": "remove_zinger"}]}
{"id": "C28", "title": "Stripe removal leaves good columns alone", "statement": "interpolate_inside_stripe, remove_dead_stripe (residual=False) and remove_large_stripe (norm=False) change only columns detected as stripes (or next to one); remove_large_stripe(norm=True) divides the other columns by their factor only; dead/interpolated columns are filled by linear interpolation between the nearest good columns, so they lie between them, and the first and last two columns are never altered by it; with kind='cubic'/'quintic' interpolate_inside_stripe fills by a spline of degree 2/3 through the good columns of the same row, and needs that many rows and columns plus one; large-stripe columns get the smoothed value of each pixel's rank.", "quantifier": "all sinograms and stripe masks", "why_tests_cant": "all masks", "anchors": [{"file": "algotom/prep/removal.py", "symbol": "remove_dead_stripe"}, {"file": "algotom/prep/removal.py", "symbol": "remove_large_stripe"}, {"file": "algotom/util/utility.py", "symbol": "interpolate_inside_stripe"}]}
{"id": "C29", "title": "Blob removal by mask", "statement": "remove_blob_1d(sino_1d, mask_1d) (and remove_blob row by row) returns a line equal to the input where the mask is 0 or within two pixels of the ends, and interpolated between the nearest unmasked pixels elsewhere, for every mask, and does not modify its arguments.", "quantifier": "all lines and masks (masks touching the edges included), repeated calls", "why_tests_cant": "edge masks and aliasing", "anchors": [{"file": "algotom/prep/removal.py", "symbol": "remove_blob_1d"}, {"file": "algotom/prep/removal.py", "symbol": "remove_blob"}]}
{"id": "C30", "title": "Flat-field correction", "statement": "flat_field_correction on floating-point data computes (proj-dark)/(flat-dark) pixelwise, never divides by zero, gives 1 where proj=flat and 0 where proj=dark (where flat differs from dark), and does not modify its arguments.", "quantifier": "all projections, flats and darks of equal size", "why_tests_cant": "all data", "anchors": [{"file": "algotom/prep/correction.py", "symbol": "flat_field_correction"}]}
{"id": "C31", "title": "unwarp_sinogram_chunk equals row-by-row unwarping", "statement": "Each row block of unwarp_sinogram_chunk(start, stop) equals the rows that unwarping whole projections gives; in particular with a zero distortion model the chunk is data[:, start:stop, :].", "quantifier": "all heights, start/stop ranges (up to the last row), distortion models", "why_tests_cant": "boundary ranges", "anchors": [{"file": "algotom/prep/correction.py", "symbol": "unwarp_sinogram_chunk"}, {"file": "algotom/prep/correction.py", "symbol": "unwarp_sinogram"}]}
{"id": "C32", "title": "Beam hardening correction is a normalised increasing map", "statement": "beam_hardening_correction maps 0 to 0 and 1 to 1 and is strictly increasing on [0,1] for every q>0 and n>=2, so pixel order is preserved and output stays in [0,1].", "quantifier": "all pixel values in [0,1], all q > 0 and n >= 2 (smaller n is rejected; with opt True/False)", "why_tests_cant": "continuous parameters", "anchors": [{"file": "algotom/prep/correction.py", "symbol": "beam_hardening_correction"}]}
{"id": "C33", "title": "upsample_sinogram scale", "statement": "upsample_sinogram(sino, scale, center) returns a sinogram with scale times as many angular steps, for every scale >= 1.", "quantifier": "all sinogram sizes, all scale >= 1", "why_tests_cant": "only some scales tested", "anchors": [{"file": "algotom/prep/correction.py", "symbol": "upsample_sinogram"}]}
{"id": "C34", "title": "Padding then cropping is lossless in frequency filters", "statement": "Filters that pad, apply a Fourier multiplier and crop keep the shape and return the input unchanged when the multiplier is one (fresnel_filter with ratio 0, mtf_deconvolution with a window of ones, double_wedge_filter with a mask of ones); fresnel_filter keeps constant images for every ratio and is linear when no log is applied; double_wedge_filter keeps constant sinograms; the two parts returned by separate_frequency_component add up to the input.", "quantifier": "all images, sizes, ratios, pad sizes; exact complex arithmetic", "why_tests_cant": "all data and pads", "anchors": [{"file": "algotom/prep/filtering.py", "symbol": "fresnel_filter"}, {"file": "algotom/prep/correction.py", "symbol": "mtf_deconvolution"}, {"file": "algotom/util/utility.py", "symbol": "separate_frequency_component"}]}
{"id": "C35", "title": "Wrap to pi", "statement": "The phase wrapping used by unwrapping returns a value in [-pi, pi) that differs from the input by an integer multiple of 2 pi, and is idempotent.", "quantifier": "all real phases", "why_tests_cant": "continuous domain", "anchors": [{"file": "algotom/prep/phase.py", "symbol": "_wrap_to_pi"}]}
{"id": "C36", "title": "Phase unwrapping recovers smooth phase gradients", "statement": "If neighbouring true phases differ by less than pi then the wrapped differences of the wrapped phase equal the true differences; unwrap_phase_based_cosine_transform therefore returns the true phase exactly, up to its mean value.", "quantifier": "all 2D phase images of any size satisfying the sampling condition", "why_tests_cant": "all images", "anchors": [{"file": "algotom/prep/phase.py", "symbol": "unwrap_phase_based_cosine_transform"}, {"file": "algotom/prep/phase.py", "symbol": "_wrap_to_pi"}]}
{"id": "C37", "title": "Fourier window symmetry of surface reconstruction", "statement": "The frequency grid of the Frankot-Chellappa window treats rows and columns alike: transposing the image size transposes the window.", "quantifier": "all image sizes", "why_tests_cant": "only square sizes are tested", "anchors": [{"file": "algotom/prep/phase.py", "symbol": "_make_window_FC_method"}]}
{"id": "C38", "title": "Transmission/dark-field extraction stays in the image and does not depend on chunking", "statement": "get_transmission_dark_field_signal reads only pixels inside the image for every shift field and returns the same result for every number of processes/chunks.", "quantifier": "all shift fields, window sizes and ncore", "why_tests_cant": "fractional shifts near .5 at the border", "anchors": [{"file": "algotom/prep/phase.py", "symbol": "get_transmission_dark_field_signal"}]}
{"id": "C39", "title": "Dataset statistics columns", "statement": "get_statistical_information / get_statistical_information_dataset report (min, max, p_low, p_high, mean, median, variance) in the documented order, the dataset version aggregating per-slice statistics.", "quantifier": "all datasets", "why_tests_cant": "column swaps are invisible when mean is near the median", "anchors": [{"file": "algotom/post/postprocessing.py", "symbol": "get_statistical_information_dataset"}, {"file": "algotom/post/postprocessing.py", "symbol": "get_statistical_information"}]}
{"id": "C40", "title": "Downsampling averages disjoint blocks", "statement": "downsample(mat, cell_size, method) equals, at block (i,j[,k]), the mean/max/min/median over that cell, trailing incomplete cells are dropped; downsample_dataset processes the data slab-wise with the same result.", "quantifier": "all array sizes, cell sizes and methods", "why_tests_cant": "all sizes", "anchors": [{"file": "algotom/post/postprocessing.py", "symbol": "downsample"}, {"file": "algotom/post/postprocessing.py", "symbol": "downsample_dataset"}]}
{"id": "C41", "title": "Rescaling to integers is bounded and monotone", "statement": "rescale(mat, nbit, minmax) maps values into [0, 2^nbit-1], is monotone, maps minimum to 0 and maximum to 2^nbit-1, and never wraps around.", "quantifier": "all arrays, nbit in {8,16}, all minmax with min<max", "why_tests_cant": "all data", "anchors": [{"file": "algotom/post/postprocessing.py", "symbol": "rescale"}]}
{"id": "C42", "title": "overwrite option of dataset writers", "statement": "rescale_dataset(..., overwrite=True) / downsample_dataset write their result to exactly the requested output path; with overwrite=False an existing file is never changed.", "quantifier": "all file-system states and both option values", "why_tests_cant": "file system states", "anchors": [{"file": "algotom/post/postprocessing.py", "symbol": "rescale_dataset"}, {"file": "algotom/post/postprocessing.py", "symbol": "downsample_dataset"}]}
{"id": "C43", "title": "reslice_dataset reorders without loss", "statement": "reslice_dataset writes, for axis 1 (or 2), output slice j holding input column j of every input image (transposed as requested) within the requested crop, for tif and hdf input alike and for every chunk size.", "quantifier": "all dataset sizes, crops, chunk sizes and input types", "why_tests_cant": "all sizes and crops", "anchors": [{"file": "algotom/post/postprocessing.py", "symbol": "reslice_dataset"}]}
{"id": "C44", "title": "reslice_dataset deletes only its own temporary data", "statement": "After reslice_dataset finishes no file or folder that existed before the call (other than the requested output) has been deleted.", "quantifier": "all file-system states and output paths", "why_tests_cant": "requires the adversarial directory layout", "anchors": [{"file": "algotom/post/postprocessing.py", "symbol": "reslice_dataset"}]}
{"id": "C45", "title": "Ramp filter kernel", "statement": "apply_ramp_filter convolves every (padded, wrapped around) row of the sinogram with the band-limited ramp kernel: 1/4 at offset 0, 0 at even offsets and -1/(pi n)^2 at odd offsets n, and the kernel is even.", "quantifier": "all sinograms, widths, pads and pad modes", "why_tests_cant": "all widths", "anchors": [{"file": "algotom/rec/reconstruction.py", "symbol": "make_2d_ramp_window"}, {"file": "algotom/rec/reconstruction.py", "symbol": "apply_ramp_filter"}]}
{"id": "C46", "title": "Reconstruction does not modify the caller's sinogram", "statement": "fbp/bpf/gridrec/astra/dfi reconstruction with apply_log leave the input sinogram array unchanged.", "quantifier": "all sinograms (including non-positive values) and options", "why_tests_cant": "aliasing effects need aliased observation after the call", "anchors": [{"file": "algotom/rec/reconstruction.py", "symbol": "fbp_reconstruction"}, {"file": "algotom/rec/reconstruction.py", "symbol": "dfi_reconstruction"}]}
{"id": "C47", "title": "Vertical slice geometry", "statement": "For slice offset s and angle alpha in [0,180], the sampled points of a vertical slice are x=(s-c) sin a + k cos a, y=-(s-c) cos a + k sin a; these lie on one line and consecutive points are one pixel apart.", "quantifier": "all offsets and angles in [0,180] degrees", "why_tests_cant": "continuous angles; dead branches", "anchors": [{"file": "algotom/rec/vertrec.py", "symbol": "_get_points_single_line"}]}
{"id": "C48", "title": "Vertical back-projection independent of chunking and threads", "statement": "Vertical-slice reconstruction accumulates the same image for every chunk size of projections and every thread schedule; multi-slice variants equal the stack of single-slice results.", "quantifier": "all projection stacks, chunk sizes, schedules", "why_tests_cant": "schedules and chunkings", "anchors": [{"file": "algotom/rec/vertrec.py", "symbol": "vertical_reconstruction"}, {"file": "algotom/rec/vertrec.py", "symbol": "vertical_back_projection_cpu"}]}
{"id": "C49", "title": "Centre metric search keeps metric values", "statement": "find_center_vertical_slice returns the candidate centre minimising the metric for every start/stop/step, integer or float.", "quantifier": "all metrics and all start, stop, step of either numeric type", "why_tests_cant": "dtype dependent", "anchors": [{"file": "algotom/rec/vertrec.py", "symbol": "find_center_vertical_slice"}]}
{"id": "C50", "title": "Correlation coefficients are bounded and exact matches peak", "statement": "Every value of generate_correlation_map lies in [-1,1]; it is 1 at the position where the template is an increasing affine copy of the reference patch; the map has shape (h0-h1+1, w0-w1+1).", "quantifier": "all reference/template images of any size (2D or stacks)", "why_tests_cant": "all data", "anchors": [{"file": "algotom/util/correlation.py", "symbol": "generate_correlation_map"}]}
{"id": "C51", "title": "Sub-pixel peak stays within half a pixel", "statement": "Sub-pixel refinement of a 1D interior maximum moves the peak by at most half a pixel (method 'diff'), is 0 for symmetric neighbours, and exact for parabolas.", "quantifier": "all triples of values with a strict interior maximum", "why_tests_cant": "continuous data", "anchors": [{"file": "algotom/util/correlation.py", "symbol": "_locate_1d_peak_subpixel"}]}
{"id": "C52", "title": "UMPA fit is the least-squares optimum", "statement": "find_local_shifts_umpa's cost at each shift is the minimum over transmission and dark-field parameters of the windowed squared residual, hence non-negative and zero for an exact model.", "quantifier": "all image stacks, windows with non-negative weights and shifts", "why_tests_cant": "all data", "anchors": [{"file": "algotom/util/correlation.py", "symbol": "find_local_shifts_umpa"}]}
{"id": "C53", "title": "Chunked shift search accepts every valid size", "statement": "find_local_shifts(_umpa) on inputs at least as large as the documented minimum size returns a full-size shift map for every chunk_size, equal to the one computed in one chunk.", "quantifier": "all heights, window sizes, margins and chunk sizes", "why_tests_cant": "only certain size/chunk combinations fail", "anchors": [{"file": "algotom/util/correlation.py", "symbol": "find_local_shifts"}, {"file": "algotom/util/correlation.py", "symbol": "find_local_shifts_umpa"}]}
{"id": "C54", "title": "Global shift aggregation", "statement": "find_global_shift_based_local_shifts returns a value between the smallest and largest local shift, independent of the order of points, equal to the common value if all agree, and changes sign when all shifts change sign.", "quantifier": "all finite lists of local shifts and all aggregation modes", "why_tests_cant": "all lists", "anchors": [{"file": "algotom/util/correlation.py", "symbol": "find_global_shift_based_local_shifts"}]}
{"id": "C55", "title": "Regularisation coefficients solve the normal equations", "statement": "The coefficient matrix of regularisation-based stripe removal is the inverse of (D^T D + alpha I), so that the correction is the exact minimiser and is symmetric under mirroring the detector.", "quantifier": "all widths and alpha>0", "why_tests_cant": "closed form over all sizes", "anchors": [{"file": "algotom/util/utility.py", "symbol": "calculate_regularization_coefficient"}, {"file": "algotom/prep/removal.py", "symbol": "remove_stripe_based_regularization"}]}
{"id": "C56", "title": "Grid scan slice location", "statement": "locate_slice / locate_slice_chunk return for every global slice index the grid row(s) and local row(s) that contain it; where two rows overlap the blending weights are in [0,1] and sum to one.", "quantifier": "all grid heights, overlaps, slice indices and chunks", "why_tests_cant": "all overlaps incl. unequal ones", "anchors": [{"file": "algotom/util/utility.py", "symbol": "locate_slice"}, {"file": "algotom/util/utility.py", "symbol": "locate_slice_chunk"}]}
{"id": "C57", "title": "Circle mask", "statement": "make_circle_mask is 0/1 valued, monotone in ratio, symmetric under transposition, and symmetric under flips.", "quantifier": "all widths and ratios", "why_tests_cant": "parity of the width", "anchors": [{"file": "algotom/util/utility.py", "symbol": "make_circle_mask"}]}
{"id": "C58", "title": "fix_non_sample_areas fills without altering", "statement": "fix_non_sample_areas keeps every entry (area, side) of the overlap table whose area is not zero, gives every other entry the (area, side) pair of an entry with sample (that of a direct neighbour if there is one, in the order of the direction), leaves no zero if the table has a sample entry, and does not modify its argument.", "quantifier": "all tables of any size and both directions", "why_tests_cant": "all layouts of sample and non-sample cells", "anchors": [{"file": "algotom/util/utility.py", "symbol": "fix_non_sample_areas"}]}
{"id": "C59", "title": "Stripe artifact simulation is local", "statement": "add_stripe_artifact changes only the columns position..position+size-1, leaves its argument unmodified and keeps the shape.", "quantifier": "all sinograms, sizes, positions and strengths", "why_tests_cant": "all parameters", "anchors": [{"file": "algotom/util/simulation.py", "symbol": "add_stripe_artifact"}]}
{"id": "C60", "title": "X-ray image conversion", "statement": "convert_to_Xray_image maps non-negative path lengths to transmissions in (0,1], 0 maps to 1, and larger path lengths give smaller transmissions.", "quantifier": "all non-negative images", "why_tests_cant": "continuous", "anchors": [{"file": "algotom/util/simulation.py", "symbol": "convert_to_Xray_image"}]}
{"id": "C61", "title": "Concurrent non-overwriting saves keep both images", "statement": "When two processes call save_image(path, img, overwrite=False) on the same path at the same time, then whatever the interleaving of their file-system steps, after both return both images are on disk.", "quantifier": "every interleaving of the name search and the write of the two callers, every initial directory content", "why_tests_cant": "a lost file needs a particular interleaving between existence check and write", "anchors": [{"file": "algotom/io/loadersaver.py", "symbol": "save_image"}, {"file": "algotom/io/loadersaver.py", "symbol": "make_file_name"}]}
{"id": "C62", "title": "Distortion coefficient file round trip", "statement": "load_distortion_coefficient applied to a file written by save_distortion_coefficient returns exactly the saved xcenter, ycenter and list of factors, for any number of factors (including none).", "quantifier": "all centres and factor lists of any length", "why_tests_cant": "unbounded list lengths (factor10, factor11, ... keys) and values", "anchors": [{"file": "algotom/io/loadersaver.py", "symbol": "save_distortion_coefficient"}, {"file": "algotom/io/loadersaver.py", "symbol": "load_distortion_coefficient"}]}
{"id": "C63", "title": "Stitching integer-typed images blends like floating ones", "statement": "stitch_image on integer-typed images (as read from a camera) blends with the same fractional weights as on floating-point copies of the images.", "quantifier": "all integer images, sizes and overlaps", "why_tests_cant": "dtype dependent; the tests use floating images", "anchors": [{"file": "algotom/prep/conversion.py", "symbol": "stitch_image"}, {"file": "algotom/prep/conversion.py", "symbol": "make_weight_matrix"}]}
{"id": "C64", "title": "The centre metric compares with the mirror image", "statement": "For every trial centre the array that calculate_center_metric compares with the sinogram is its mirror image about that centre (interpolated off the half-pixel grid) where the mirrored position is on the detector, and the up-down flipped sinogram elsewhere; no wrapped-around column is used.", "quantifier": "all sinogram sizes and trial centres on the detector", "why_tests_cant": "wrap-around errors affect only a few columns for particular centres", "anchors": [{"file": "algotom/prep/calculation.py", "symbol": "calculate_center_metric"}]}
{"id": "C65", "title": "Flat-field correction of integer data never divides by zero", "statement": "flat_field_correction on integer-typed arrays with an integer ratio returns finite values: every pixel where flat equals dark is replaced by a non-zero denominator.", "quantifier": "all integer projections, flats, darks", "why_tests_cant": "dtype dependent; needs a mean below one", "anchors": [{"file": "algotom/prep/correction.py", "symbol": "flat_field_correction"}]}
{"id": "C66", "title": "Tilted sinograms", "statement": "generate_tilted_sinogram(data, index, angle) samples each whole projection (bilinear interpolation) along the tilted line through the row, generate_tilted_sinogram_chunk stacks exactly the single tilted sinograms of its rows, and angle 0 gives the plain sinogram data[:, index, :].", "quantifier": "all data sets, rows, angles (also lines leaving the image)", "why_tests_cant": "slab boundaries depend on the angle; all angles", "anchors": [{"file": "algotom/prep/correction.py", "symbol": "generate_tilted_sinogram"}, {"file": "algotom/prep/correction.py", "symbol": "generate_tilted_sinogram_chunk"}, {"file": "algotom/prep/correction.py", "symbol": "generate_tilted_profile_chunk"}, {"file": "algotom/prep/correction.py", "symbol": "generate_tilted_profile_line"}]}
{"id": "C67", "title": "Low-pass filters keep constant images", "statement": "The low-pass part of separate_frequency_component (gaussian window) and apply_gaussian_filter return a constant image unchanged (a low-pass filter has gain one at frequency zero).", "quantifier": "all sizes, window widths, pads", "why_tests_cant": "the deviation is tiny for the default sizes, tests compare with loose tolerances", "anchors": [{"file": "algotom/util/utility.py", "symbol": "separate_frequency_component"}, {"file": "algotom/util/utility.py", "symbol": "apply_gaussian_filter"}]}
{"id": "C68", "title": "Surface from gradients solves the Poisson equation", "statement": "reconstruct_surface_from_gradient_SCS_method (pad=0) returns, for gradients of equal shape, a surface of the same shape whose periodic five-point Laplacian equals the central-difference divergence of the gradients at every pixel; with correct_negative all heights are non-negative; unequal shapes raise ValueError.", "quantifier": "all gradient images of every size", "why_tests_cant": "an exact identity over all images", "anchors": [{"file": "algotom/prep/phase.py", "symbol": "reconstruct_surface_from_gradient_SCS_method"}]}
{"id": "C69", "title": "Wavelet-FFT damping removes ideal stripes", "statement": "The damping step of remove_stripe_based_wavelet_fft maps a wavelet detail image that is constant along the angular axis (an ideal stripe) to zero.", "quantifier": "all detail sizes (even and odd), both window names, all damping sizes", "why_tests_cant": "depends on the parity of the detail's height", "anchors": [{"file": "algotom/util/utility.py", "symbol": "make_2d_damping_window"}, {"file": "algotom/prep/removal.py", "symbol": "remove_stripe_based_wavelet_fft"}]}
{"id": "C70", "title": "FFT stripe window is centred on the zero frequency", "statement": "The butterworth window of remove_stripe_based_fft is symmetric about the zero-frequency row/column of the shifted spectrum and its damped rows contain the zero row frequency.", "quantifier": "all sizes and window parameters", "why_tests_cant": "off-by-one shift depending on parity", "anchors": [{"file": "algotom/util/utility.py", "symbol": "make_2d_butterworth_window"}, {"file": "algotom/prep/removal.py", "symbol": "remove_stripe_based_fft"}]}
{"id": "C71", "title": "Integer translations are recovered", "statement": "find_shift_based_correlation_map on two images of the same size that are related by a unique integer translation within the margin (up to brightness and contrast) returns that translation: exactly without sub-pixel search, within half a pixel (dim=1) or one pixel (dim=2) with it.", "quantifier": "all image sizes, margins, contents, brightness/contrast changes, translations and sub-pixel methods", "why_tests_cant": "all images; small sizes skip the search silently", "anchors": [{"file": "algotom/util/correlation.py", "symbol": "find_shift_based_correlation_map"}, {"file": "algotom/util/correlation.py", "symbol": "locate_peak"}, {"file": "algotom/util/correlation.py", "symbol": "generate_correlation_map"}]}
{"id": "C72", "title": "Local translations are recovered pixel by pixel", "statement": "find_local_shifts returns, at every pixel whose window in the second stack is an integer translation (within the margin, and the only one) of the reference up to brightness and contrast, that translation: exactly without sub-pixel search and to less than one pixel with method diff, whatever the chunk size and normalisation. In one-direction mode the same holds for every line, to half a pixel.", "quantifier": "all stacks, window sizes, margins, chunk sizes, translation fields", "why_tests_cant": "all images and all displacement fields, all chunkings", "anchors": [{"file": "algotom/util/correlation.py", "symbol": "find_local_shifts"}, {"file": "algotom/util/correlation.py", "symbol": "find_shift_based_correlation_map"}]}
{"id": "C73", "title": "Global translation from local searches", "statement": "find_global_shift_based_local_shifts uses exactly the given points that lie inside the image by the window and margin (or the random ones), and if the windows of these points are translated by one common vector it returns that vector: exactly without sub-pixel search, to less than one pixel with it, for every aggregation and every schedule of the workers.", "quantifier": "all images, point lists, random choices, worker schedules, aggregations", "why_tests_cant": "all images and schedules", "anchors": [{"file": "algotom/util/correlation.py", "symbol": "find_global_shift_based_local_shifts"}, {"file": "algotom/util/correlation.py", "symbol": "__get_input_list"}]}
{"id": "C74", "title": "Background fluctuation only attenuates", "statement": "add_background_fluctuation multiplies each row by a symmetric bell-shaped profile in (0,1], circularly shifted by at most strength*width/4: shape kept, no absolute value grows, signs and zeros are kept, whatever the random numbers.", "quantifier": "all sinograms, strengths in [0,1], random numbers", "why_tests_cant": "all random numbers", "anchors": [{"file": "algotom/util/simulation.py", "symbol": "add_background_fluctuation"}]}
{"id": "C75", "title": "Phantom masks follow the geometry", "statement": "make_elliptic_mask / make_rectangular_mask are 1 exactly at the pixels inside the figure with the given centre, axis lengths and counter-clockwise angle (1% tolerance) and 0 elsewhere: half turns change nothing, integer moves of the centre move the mask, for odd sizes 90 degrees more is np.rot90, larger lengths give larger masks, the angle of a circle does not matter; ellipses and triangles lie inside their rectangle and the triangle mask is 0/1.", "quantifier": "all sizes, centres, lengths, angles", "why_tests_cant": "continuous parameters", "anchors": [{"file": "algotom/util/simulation.py", "symbol": "make_elliptic_mask"}, {"file": "algotom/util/simulation.py", "symbol": "make_rectangular_mask"}, {"file": "algotom/util/simulation.py", "symbol": "make_triangular_mask"}]}
{"id": "C76", "title": "Spiral positions", "statement": "generate_spiral_positions either returns num_pos distinct positions inside the field of view, the i-th at distance step*sqrt(i) from the centre, or raises ValueError, the latter iff some position is outside.", "quantifier": "all steps, numbers, image sizes and spiral shapes", "why_tests_cant": "continuous parameters", "anchors": [{"file": "algotom/util/utility.py", "symbol": "generate_spiral_positions"}]}
{"id": "C77", "title": "Ellipse fit is exact", "statement": "fit_points_to_ellipse returns, for six or more points of any ellipse (five of them distinct), the lengths of the long and the short axis, the angle of the long axis in (-90,90] degrees (0 for a circle) and the centre; for any points the returned axes are ordered and the angle is within [-90,90]; unequal lengths raise ValueError.", "quantifier": "all ellipses, all point sets", "why_tests_cant": "continuous parameters; the sign of the singular vector is arbitrary", "anchors": [{"file": "algotom/util/calibration.py", "symbol": "fit_points_to_ellipse"}]}
{"id": "C78", "title": "Tilt and roll of the rotation axis", "statement": "find_tilt_roll returns tilt 0 and the direction of the line for points on a straight line with both methods, the direction of the long axis and the tilt of the circle seen as an ellipse for points on an ellipse, angles in [0,90] and [-90,90] for all inputs, and raises only for unequal lengths, unknown methods and fewer than two points.", "quantifier": "all point sets and methods", "why_tests_cant": "continuous parameters", "anchors": [{"file": "algotom/util/calibration.py", "symbol": "find_tilt_roll"}, {"file": "algotom/util/calibration.py", "symbol": "find_tilt_roll_based_linear_fit"}, {"file": "algotom/util/calibration.py", "symbol": "find_tilt_roll_based_ellipse_fit"}]}
{"id": "C79", "title": "Only small zingers are treated", "statement": "With check_size, select_zinger keeps exactly the connected regions of the mask with at most max_size pixels, whole, and drops the others.", "quantifier": "all masks and size limits", "why_tests_cant": "all shapes and arrangements of regions", "anchors": [{"file": "algotom/prep/removal.py", "symbol": "select_zinger"}, {"file": "algotom/prep/removal.py", "symbol": "check_zinger_size"}]}
{"id": "C80", "title": "Dots and the distance between them", "statement": "binarize_image rejects thresholds outside the range of the image, returns 0/1 with dots as the minority whatever the contrast, and calculate_distance gives the distance between the centroids of the dots of the selected size, whatever the order of the images and the size option.", "quantifier": "all images, thresholds, options", "why_tests_cant": "all images", "anchors": [{"file": "algotom/util/calibration.py", "symbol": "binarize_image"}, {"file": "algotom/util/calibration.py", "symbol": "invert_dot_contrast"}, {"file": "algotom/util/calibration.py", "symbol": "get_dot_size"}, {"file": "algotom/util/calibration.py", "symbol": "select_dot_based_size"}, {"file": "algotom/util/calibration.py", "symbol": "calculate_distance"}]}
{"id": "C81", "title": "Stripe detection depends on relative contrast only", "statement": "detect_stripe returns a 0/1 mask of the same length in which the mark of a value depends neither on its position nor on the unit and offset of the data; the unmarked values form an interval; a larger snr never marks more; values standing out of evenly spread ones (at most a quarter, by snr times the spread) are exactly the marked ones; data without spread raises ValueError.", "quantifier": "all lists of 3 or at least 5 values and all snr", "why_tests_cant": "continuous data; all rearrangements and units", "anchors": [{"file": "algotom/util/utility.py", "symbol": "detect_stripe"}]}
{"id": "C82", "title": "Bright and dark stripes are treated alike", "statement": "detect_stripe gives the same mask for data and for the inverted data.", "quantifier": "all lists and snr", "why_tests_cant": "needs every pair of inputs", "anchors": [{"file": "algotom/util/utility.py", "symbol": "detect_stripe"}]}
{"id": "C83", "title": "Interpolation-based stripe removal rewrites detected columns only", "statement": "remove_stripe_based_interpolation replaces the detected columns and their direct neighbours, never the first and last two columns, by interpolation of the requested kind between the other columns of the same row; other columns are returned unchanged (norm=False) or divided by their non-zero factor (norm=True); it fails only if the detector fails or the image is too small.", "quantifier": "all sinograms, filters, snr, norm and kind", "why_tests_cant": "all positions of stripes", "anchors": [{"file": "algotom/prep/removal.py", "symbol": "remove_stripe_based_interpolation"}, {"file": "algotom/util/utility.py", "symbol": "interpolate_inside_stripe"}]}
{"id": "C84", "title": "Large-stripe normalisation never divides by zero", "statement": "remove_large_stripe(norm=True) never divides a column it keeps by zero.", "quantifier": "all sinograms and snr", "why_tests_cant": "depends on the interplay of detector and normalisation for every input", "anchors": [{"file": "algotom/prep/removal.py", "symbol": "remove_large_stripe"}]}
{"id": "C85", "title": "Blob masks", "statement": "generate_blob_mask returns a mask of the image's shape in which a pixel is set exactly if a pixel of the same row at most one column away, not among the first and last two, is detected as standing out of its row; a row the detector rejects raises ValueError for the whole call.", "quantifier": "all flat images, sizes, snr", "why_tests_cant": "all arrangements of blobs", "anchors": [{"file": "algotom/prep/removal.py", "symbol": "generate_blob_mask"}]}
{"id": "C86", "title": "Filtering wavelet components touches the requested ones only", "statement": "apply_filter_to_wavelet_component applies the method to component order (clipped to 0..2) of exactly the requested levels (all, one, or a list) and leaves the rest of the decomposition alone; a level that does not exist, a level of another type or an unknown method raises ValueError; errors of the method on a requested component, and only those, are passed on.", "quantifier": "all decompositions, level arguments, orders and methods", "why_tests_cant": "unbounded number of levels and arbitrary filters", "anchors": [{"file": "algotom/util/utility.py", "symbol": "check_level"}, {"file": "algotom/util/utility.py", "symbol": "apply_filter_to_wavelet_component"}]}
{"id": "C87", "title": "Any image can be decomposed at a feasible level", "statement": "apply_wavelet_decomposition uses the requested level if at least 16 pixels per side remain at that scale and otherwise the largest such level, and succeeds for every image.", "quantifier": "all image sizes and level arguments", "why_tests_cant": "all sizes and levels", "anchors": [{"file": "algotom/util/utility.py", "symbol": "apply_wavelet_decomposition"}]}
{"id": "C88", "title": "Wavelet reconstruction does not alter its input", "statement": "apply_wavelet_reconstruction with ignore_level=k reconstructs from the components with those of the k-th finest level replaced by zeros, and the decomposition passed in is unchanged afterwards.", "quantifier": "all decompositions and levels", "why_tests_cant": "side effect over all inputs", "anchors": [{"file": "algotom/util/utility.py", "symbol": "apply_wavelet_reconstruction"}]}
{"id": "C89", "title": "Polar transform and back", "statement": "The coordinates used by the polar transforms lie inside the image, the forward grid covers a full turn and all radii up to the edge, and transforming forward and then backward looks every pixel inside the circle up where it came from. Images that are not square and coordinates of a different shape raise ValueError.", "quantifier": "all image sizes and pixels", "why_tests_cant": "trigonometric identities over all sizes", "anchors": [{"file": "algotom/util/utility.py", "symbol": "rectangular_from_polar"}, {"file": "algotom/util/utility.py", "symbol": "polar_from_rectangular"}, {"file": "algotom/util/utility.py", "symbol": "transform_slice_forward"}, {"file": "algotom/util/utility.py", "symbol": "transform_slice_backward"}]}
{"id": "C90", "title": "Regularisation filter works line by line", "statement": "apply_regularization_filter gives the same result for any number of processes and any interleaving; each row (column for axis=0) is filtered on its own, linearly, and rows without variation are returned unchanged; axis=0 is the transpose of axis=1; one-column images raise IndexError.", "quantifier": "all images, alpha, core counts and schedules", "why_tests_cant": "all schedules and images", "anchors": [{"file": "algotom/util/utility.py", "symbol": "apply_1d_regularizer"}, {"file": "algotom/util/utility.py", "symbol": "apply_regularization_filter"}]}
{"id": "C91", "title": "2D window from a 1D window", "statement": "transform_1d_window_to_2d (order 1, the default) returns a square window whose central column is the 1D window; for a symmetric window of odd length every entry is the 1D window at its distance from the centre (cut at the half width).", "quantifier": "all windows of length at least 2 and all entries", "why_tests_cant": "continuous values, all lengths", "anchors": [{"file": "algotom/util/utility.py", "symbol": "transform_1d_window_to_2d"}]}
{"id": "C92", "title": "Filtering-based stripe removal changes the low frequencies only", "statement": "remove_stripe_based_filtering returns a sinogram without stripes (all columns equal) unchanged with or without sorting, for every sigma and size; for any sinogram and filter the change made equals the change the filter makes to the low-pass component along the columns. remove_stripe_based_2d_filtering_sorting changes the sinogram exactly as the sorting method changes its high-pass part, and leaves constant sinograms (even sizes) unchanged.", "quantifier": "all sinograms, sigmas, sizes and filters", "why_tests_cant": "all shapes and real values", "anchors": [{"file": "algotom/prep/removal.py", "symbol": "remove_stripe_based_filtering"}, {"file": "algotom/prep/removal.py", "symbol": "remove_stripe_based_2d_filtering_sorting"}]}
{"id": "C93", "title": "Fitting-based stripe removal: valid windows, constants and scaling", "statement": "remove_stripe_based_fitting succeeds exactly if the number of chunks is positive and the odd window length of one chunk exceeds the polynomial order; a constant non-zero sinogram is returned unchanged, and scaling the sinogram by a positive factor scales the result.", "quantifier": "all sinograms, orders, sigmas and chunk numbers", "why_tests_cant": "all shapes and real values", "anchors": [{"file": "algotom/prep/removal.py", "symbol": "remove_stripe_based_fitting"}, {"file": "algotom/util/utility.py", "symbol": "generate_fitted_image"}]}
{"id": "C94", "title": "Removing all stripes from a sinogram without stripes", "statement": "remove_all_stripe returns a stripe-free sinogram unchanged, and in general is the dead-stripe step, the large-stripe step and the sorting step in that order.", "quantifier": "all sinograms and parameters", "why_tests_cant": "all shapes and values", "anchors": [{"file": "algotom/prep/removal.py", "symbol": "remove_all_stripe"}]}
{"id": "C95", "title": "FFT-based stripe removal keeps a stripe-free sinogram", "statement": "remove_stripe_based_fft returns a sinogram whose columns are all equal unchanged, for every u, n, v.", "quantifier": "all sinogram sizes, profiles and filter parameters", "why_tests_cant": "Fourier identities over all sizes", "anchors": [{"file": "algotom/prep/removal.py", "symbol": "remove_stripe_based_fft"}]}
{"id": "C96", "title": "Wavelet-FFT stripe removal keeps a stripe-free sinogram", "statement": "remove_stripe_based_wavelet_fft accepts every sinogram large enough for one decomposition level and returns one whose columns are all equal unchanged, for every level, size, window and sort option; the shape is kept.", "quantifier": "all sinogram sizes, profiles and parameters", "why_tests_cant": "all sizes and decompositions", "anchors": [{"file": "algotom/prep/removal.py", "symbol": "remove_stripe_based_wavelet_fft"}]}
{"id": "C97", "title": "Ring removal works inside the circle and keeps clean images", "statement": "remove_ring_based_fft and remove_ring_based_wavelet_fft reject images that are not square, keep the shape, set every pixel outside the inscribed circle to zero, and leave a constant image unchanged inside it.", "quantifier": "all image sizes and values", "why_tests_cant": "all sizes and pixels", "anchors": [{"file": "algotom/post/postprocessing.py", "symbol": "remove_ring_based_fft"}, {"file": "algotom/post/postprocessing.py", "symbol": "remove_ring_based_wavelet_fft"}]}
{"id": "C98", "title": "Stacks of a Diamond-style scan: references and one projection per file", "statement": "get_reference_sample_stacks_dls returns, for each file used and in order, the cropped mean of the images whose key is the flat key and the sample image number proj_idx, each corrected by the given or recorded flat and dark fields; an index out of the range of the sample images is rejected.", "quantifier": "all lists of files, image keys, crops, indices and fields", "why_tests_cant": "all key sequences and sizes", "anchors": [{"file": "algotom/io/loadersaver.py", "symbol": "get_reference_sample_stacks_dls"}]}
{"id": "C99", "title": "The stack loaders agree", "statement": "get_image_stack succeeds exactly if every source used has the image asked for, and slice q of the result is the cropped, flat-dark-corrected image (or average) of source q; get_reference_sample_stacks returns what get_image_stack returns for the two lists, and get_tif_stack what it returns for one folder; without index get_tif_stack returns the first num_use images in order.", "quantifier": "all lists of sources, indices, crops, 2D flat and dark fields, and image heights other than 3", "why_tests_cant": "all numbers of sources and image sizes", "anchors": [{"file": "algotom/io/loadersaver.py", "symbol": "get_image_stack"}, {"file": "algotom/io/loadersaver.py", "symbol": "get_tif_stack"}, {"file": "algotom/io/loadersaver.py", "symbol": "get_reference_sample_stacks"}]}
{"id": "C100", "title": "The tif emulator indexes like an array", "statement": "Indexing HdfEmulatorFromTif with an integer, a slice or a triple gives what indexing the 3D array of all images of the folder gives, errors included; files with extension .tif or .TIF are found.", "quantifier": "all folders and indices", "why_tests_cant": "all index forms, including negative and stepped slices", "anchors": [{"file": "algotom/io/converter.py", "symbol": "__getitem__"}]}
{"id": "C101", "title": "The keys of an hdf file are found, each once", "statement": "get_hdf_information lists every object of the file exactly once, with the shape and type of each dataset at the same position, and every listed key opens the object it stands for; find_hdf_key returns exactly the entries whose key contains the pattern; load_hdf returns the object at the path, with or without leading slash, and raises ValueError if there is none.", "quantifier": "all hdf files (trees of groups, datasets and dangling links) and patterns", "why_tests_cant": "all tree shapes and names", "anchors": [{"file": "algotom/io/loadersaver.py", "symbol": "get_hdf_information"}, {"file": "algotom/io/loadersaver.py", "symbol": "find_hdf_key"}, {"file": "algotom/io/loadersaver.py", "symbol": "load_hdf"}]}
{"id": "C102", "title": "The tree view shows every object once and tells files apart", "statement": "get_hdf_tree prints every object exactly once, before its members, indented by its depth and with its shape, the last member of each group with its own branch sign; two files that print alike have the same objects.", "quantifier": "all hdf files with names that do not start with a blank", "why_tests_cant": "all tree shapes", "anchors": [{"file": "algotom/io/loadersaver.py", "symbol": "get_hdf_tree"}, {"file": "algotom/io/loadersaver.py", "symbol": "_make_tree_body"}, {"file": "algotom/io/loadersaver.py", "symbol": "_add_branches"}]}
{"id": "C103", "title": "Opening an hdf stream accepts every consistent set of keys", "statement": "open_hdf_stream succeeds exactly if the main key and the additional keys can stand beside each other (none is a beginning of another), and the file then holds exactly these datasets; a refused call leaves an existing file as it was; different file names give different files.", "quantifier": "all keys, options, file names and previous contents", "why_tests_cant": "all key sets", "anchors": [{"file": "algotom/io/loadersaver.py", "symbol": "open_hdf_stream"}]}
{"id": "C104", "title": "Filtered back-projection from end to end", "statement": "fbp_reconstruction raises ValueError exactly if the centre is outside the detector, the number of angles differs from the number of rows, or a single sinogram has one row or column; otherwise every slice of the result is pi/(nrow-1) times the sum over the angles of the ramp-filtered projection at the detector position of the pixel, zero outside the circle; a chunk gives the same as its slices one by one, whatever ncore; without logarithm it is linear; turning or negating all angles turns or mirrors the image; permuting the projections with their angles, or reversing the detector and adding half a turn, changes nothing.", "quantifier": "all sinograms and chunks, centres, angle lists, ratios, windows, filter names, pads, thread orders", "why_tests_cant": "all sizes, angle lists and thread orders", "anchors": [{"file": "algotom/rec/reconstruction.py", "symbol": "fbp_reconstruction"}, {"file": "algotom/rec/reconstruction.py", "symbol": "apply_ramp_filter"}, {"file": "algotom/rec/reconstruction.py", "symbol": "back_projection_gpu"}]}
{"id": "C105", "title": "Back-projection filtering from end to end", "statement": "bpf_reconstruction fails exactly for the arguments fbp_reconstruction refuses; otherwise every slice is the circularly ramp-filtered back-projection with edge extension times pi/(nrow-1), zero outside the circle; a chunk gives the same as its slices one by one; without logarithm it is linear, and a constant sinogram gives a constant image.", "quantifier": "all sinograms and chunks, centres, angle lists, ratios, windows, filter names, pads", "why_tests_cant": "all sizes and windows", "anchors": [{"file": "algotom/rec/reconstruction.py", "symbol": "bpf_reconstruction"}, {"file": "algotom/rec/reconstruction.py", "symbol": "apply_circular_ramp_filter"}, {"file": "algotom/rec/reconstruction.py", "symbol": "make_circular_ramp_window"}]}
{"id": "C106", "title": "Smoothing windows are low-pass windows centred on frequency zero", "statement": "make_smoothing_window gives for every filter name and width values between 0 and 1 that are symmetric and never increase away from the middle; applied after fftshift, frequency zero is kept and the frequencies k and -k are damped alike.", "quantifier": "all filter names and widths", "why_tests_cant": "all widths", "anchors": [{"file": "algotom/rec/reconstruction.py", "symbol": "make_smoothing_window"}]}
{"id": "C107", "title": "The direct Fourier method samples the Fourier plane in polar coordinates", "statement": "generate_mapping_coordinate maps every pixel of the plane, with polar coordinates (rho, phi) around its centre and 0 < phi <= pi, to the row phi*(height-1)/pi of the sinogram and to the column r_max + rho, rho limited to +-r_max; the coordinates never leave the sinogram; the central row and column of an odd plane fall on samples of the last and the middle row.", "quantifier": "all sizes of plane and sinogram, all pixels", "why_tests_cant": "all sizes and pixels; trigonometric case distinctions", "anchors": [{"file": "algotom/rec/reconstruction.py", "symbol": "generate_mapping_coordinate"}]}
{"id": "C108", "title": "The direct Fourier method brings any equidistant angles to the range from 0 to 180 degrees", "statement": "For projections of one object at equidistant angles over 180 or 360 degrees, in ascending or descending order and from any start angle, the sinogram that dfi_reconstruction reconstructs has in row i the projection at the angle i*step.", "quantifier": "all objects, start angles that are multiples of the step, numbers of rows, directions", "why_tests_cant": "all objects, start angles and sizes", "anchors": [{"file": "algotom/rec/reconstruction.py", "symbol": "__dfi_handle_angles"}]}
{"id": "C109", "title": "Direct Fourier reconstruction from end to end", "statement": "dfi_reconstruction raises ValueError exactly if the centre is outside the detector, the number of angles differs from the number of rows or the pad is negative; a chunk gives the same images as its slices one by one; outside the circle the image is zero; without logarithm it is linear; the sums over the columns (rows) of the image are the projection at 180 (90) degrees mirrored about the centre, and its total is the total of the last projection, for every smoothing window.", "quantifier": "all sinograms and chunks of at least two rows and columns, centres, angle lists, ratios, filters, pads, interpolations exact at the samples", "why_tests_cant": "all sizes and data", "anchors": [{"file": "algotom/rec/reconstruction.py", "symbol": "dfi_reconstruction"}, {"file": "algotom/rec/reconstruction.py", "symbol": "__dfi_single_slice"}, {"file": "algotom/rec/reconstruction.py", "symbol": "__dfi_handle_sinogram"}]}
{"id": "C110", "title": "Centre search by a slice metric returns the best candidate", "statement": "find_center_based_slice_metric returns the first centre with the smallest metric (largest with invert_metric) among the candidates step apart within the radius around the coarse centre, which is the first best among the candidates one zoomed pixel apart from start to stop; it returns a centre for every interval of valid centres; it exceeds the interval by less than the radius plus a step and a zoomed pixel; for entropy and sharpness it does not change when the slices are multiplied by a positive factor and offset by a constant; the sharpness is zero exactly for constant slices, the entropy depends on the values of the slice only.", "quantifier": "all sinograms, intervals, steps, radii, zooms, metrics, reconstruction methods", "why_tests_cant": "all data, intervals and reconstruction methods", "anchors": [{"file": "algotom/rec/reconstruction.py", "symbol": "find_center_based_slice_metric"}, {"file": "algotom/rec/reconstruction.py", "symbol": "_find_center_based_slice_metric"}, {"file": "algotom/rec/reconstruction.py", "symbol": "__get_slice_metric"}]}
{"id": "C111", "title": "Visual centre searches write one file per candidate", "statement": "find_center_visual_slices and find_center_visual_sinograms try the centres start, start + step, ... up to stop that lie on the detector and no others, write each to a file of its own whose name tells the centre to 0.005 pixel, and for slices write all of them unless a reconstruction raises; every valid centre can be requested.", "quantifier": "all widths, starts, stops, steps, zooms", "why_tests_cant": "all argument values and sizes", "anchors": [{"file": "algotom/rec/reconstruction.py", "symbol": "find_center_visual_slices"}, {"file": "algotom/util/utility.py", "symbol": "find_center_visual_sinograms"}]}
{"id": "C112", "title": "Visual centre searches show the labelled centre", "statement": "The slice labelled c is reconstructed about position c of the original sinogram, also with zoom; the sinogram labelled c is the input above its mirror image about position c.", "quantifier": "all sinograms, candidate centres, zooms, rows and columns", "why_tests_cant": "all data, centres and zooms", "anchors": [{"file": "algotom/rec/reconstruction.py", "symbol": "find_center_visual_slices"}, {"file": "algotom/util/utility.py", "symbol": "find_center_visual_sinograms"}]}
{"id": "C113", "title": "GPU, hybrid and CPU local-shift searches agree", "statement": "find_local_shifts gives the same shifts with gpu=True, gpu='hybrid' and on the CPU, for every chunk size, thread-block shape and normalisation flag: identical in one-direction mode (method diff) and in hybrid mode (every method); in two-direction GPU mode within half a pixel, and identical unless the best match lies at the edge of the searched area, where the GPU returns whole pixels.", "quantifier": "all stacks whose windows vary, window sizes, margins >= 1, chunk sizes, blocks, flags, pixels", "why_tests_cant": "all images, chunk sizes and launch shapes", "anchors": [{"file": "algotom/util/correlation.py", "symbol": "find_local_shifts"}, {"file": "algotom/util/correlation.py", "symbol": "_get_2d_shift_full_image_3d_input_gpu"}, {"file": "algotom/util/correlation.py", "symbol": "_get_2d_shift_full_image_3d_input_cpu_gpu"}, {"file": "algotom/util/correlation.py", "symbol": "__locate_2d_peak_kernel"}, {"file": "algotom/util/correlation.py", "symbol": "__locate_1d_peak_kernel"}]}
{"id": "C114", "title": "FFT phase unwrapping depends on the phase modulo whole turns", "statement": "unwrap_phase_based_fft, and unwrap_phase_iterative_fft without a weight map, return the same image for two phase images that differ by whole turns per pixel and one constant; the result has the size of the image and total zero; a constant phase gives zero; mirroring, turning upside down or transposing the phase (and the weight map) does the same to the result, and negating it negates the non-iterative result; a window is accepted exactly if it has twice the size of the image.", "quantifier": "all images, whole-turn maps, offsets, windows, numbers of iterations, weight maps", "why_tests_cant": "all phase images and wrap patterns", "anchors": [{"file": "algotom/prep/phase.py", "symbol": "unwrap_phase_based_fft"}, {"file": "algotom/prep/phase.py", "symbol": "unwrap_phase_iterative_fft"}, {"file": "algotom/prep/phase.py", "symbol": "_double_image"}, {"file": "algotom/prep/phase.py", "symbol": "_make_window"}]}
{"id": "C115", "title": "Frankot-Chellappa surface from gradients", "statement": "reconstruct_surface_from_gradient_FC_method returns a surface of the shape of the gradients exactly if these have one shape and the window is not given or is three arrays of twice that shape, with no negative height if correct_negative is on (which raises the whole surface by one constant); without it the surface is linear in the gradients, follows mirror images, treats rows and columns alike, and integrates gradients that vary along an axis exactly up to a constant.", "quantifier": "all gradients, sizes, windows, flags, coefficients of the cosine series", "why_tests_cant": "all gradients and sizes; only square images are tested", "anchors": [{"file": "algotom/prep/phase.py", "symbol": "reconstruct_surface_from_gradient_FC_method"}, {"file": "algotom/prep/phase.py", "symbol": "_make_window_FC_method"}]}
{"id": "C116", "title": "A vertical slice is a section through the horizontal slices", "statement": "For an image of odd width, vertical_reconstruction with ramp_filter='before' and no mask returns at 0 degrees the rows, at 90 degrees the columns (read upwards) with that slice index of the images fbp_reconstruction gives for the sinograms of the detector rows with the same centre, angles, filter, padding and logarithm; with ramp_filter=None the same for plain back-projection with edge padding.", "quantifier": "all projection stacks, reference fields, crops, centres, angle lists, filters, padding modes, slice indices, chunk sizes, CPU and GPU schedules", "why_tests_cant": "two code paths over all data, geometries and schedules; a half-pixel offset is invisible in smooth test data", "anchors": [{"file": "algotom/rec/vertrec.py", "symbol": "vertical_reconstruction"}, {"file": "algotom/rec/reconstruction.py", "symbol": "fbp_reconstruction"}, {"file": "algotom/rec/vertrec.py", "symbol": "_get_points_single_line"}]}
{"id": "C117", "title": "The three vertical reconstruction functions agree", "statement": "vertical_reconstruction, vertical_reconstruction_multiple and vertical_reconstruction_different_angles accept exactly the documented arguments and otherwise raise; slice number s of the latter two is what the first gives for index start + s * step, respectively for the s-th index and angle, whatever devices, schedules and chunk sizes the calls use; two slices agree where they cross, unless they are filtered after the back-projection (which mixes the points of a slice) or masked; masking keeps the central columns unchanged and sets the others to zero.", "quantifier": "all stacks, options, indices, angles, chunk sizes, numbers of threads, schedules, GPU launches", "why_tests_cant": "all combinations of options and all thread schedules", "anchors": [{"file": "algotom/rec/vertrec.py", "symbol": "vertical_reconstruction"}, {"file": "algotom/rec/vertrec.py", "symbol": "vertical_reconstruction_multiple"}, {"file": "algotom/rec/vertrec.py", "symbol": "vertical_reconstruction_different_angles"}]}
{"id": "C118", "title": "The full helical sinogram contains the projections that see the slice", "statement": "generate_full_sinogram_helical_scan succeeds for every slice whose projections are stored; each row is the stored projection interpolated at the detector row that sees the height of the slice, the angles are those of these projections, no projection before the first row sees the slice and at most two after the last one do; otherwise it raises ValueError.", "quantifier": "all scan geometries (pixel size, pitch, range, number of projections, crop), slice indices, data, reference fields", "why_tests_cant": "continuous geometry parameters", "anchors": [{"file": "algotom/prep/conversion.py", "symbol": "generate_full_sinogram_helical_scan"}]}
{"id": "C119", "title": "Speckle image stacks are aligned", "statement": "find_shift_between_image_stacks returns the shift of every pair of images and refuses stacks of different shapes; align_image_stacks with these shifts makes reference and sample images show the same speckles at every pixel whose sources lie in the images; with the shifts of find_shift_between_sample_images (whose border crop removes every filled-in pixel) the object is at the same place in all aligned sample images.", "quantifier": "all stacks, image sizes, speckle patterns, objects, whole-pixel displacements of speckles and object, numbers of cores and schedules", "why_tests_cant": "displacements of every pair, any number of images", "anchors": [{"file": "algotom/prep/phase.py", "symbol": "find_shift_between_image_stacks"}, {"file": "algotom/prep/phase.py", "symbol": "find_shift_between_sample_images"}, {"file": "algotom/prep/phase.py", "symbol": "align_image_stacks"}]}
{"id": "C120", "title": "Local shifts of two single images", "statement": "find_local_shifts of two 2D images refuses images of different shapes or smaller than win_size + 2*margin; otherwise the result does not depend on ncore or scheduling, contains at every pixel at least margin + win_size//2 from the border the shift found for the window of that pixel alone - the true one if the window (of the normalised images with norm=True) is translated by whole pixels - and zeros elsewhere.", "quantifier": "all image pairs, window sizes, margins, numbers of cores, schedules", "why_tests_cant": "schedules and image contents", "anchors": [{"file": "algotom/util/correlation.py", "symbol": "_get_2d_shift_full_image_2d_input"}, {"file": "algotom/util/correlation.py", "symbol": "find_local_shifts"}]}
{"id": "C121", "title": "Speckle tracking uses only shifts that were found", "statement": "retrieve_phase_based_speckle_tracking returns what its flags ask for; the shift images are the found shifts, with the border that was not searched replaced by a mirror image of the searched part, so that every shift used for the phase image was found at some pixel.", "quantifier": "all images, window sizes, margins, search and surface methods, flags", "why_tests_cant": "any window size and image size", "anchors": [{"file": "algotom/prep/phase.py", "symbol": "retrieve_phase_based_speckle_tracking"}]}
{"id": "C122", "title": "Quality map of a phase image", "statement": "get_quality_map refuses only empty images and negative sizes; the map has the shape of the image, values between 0 and 4*pi/win_size, does not change when whole turns are added to single pixels or a constant to all, is transposed with the image, and away from the border is zero exactly where the wrapped phase steps are the same in the whole window (in particular for wrapped planes). Every pixel influences it.", "quantifier": "all phase images and window sizes", "why_tests_cant": "values of any image and any window", "anchors": [{"file": "algotom/prep/phase.py", "symbol": "get_quality_map"}]}
{"id": "C123", "title": "Weight mask of a quality map", "statement": "get_weight_mask is refused exactly for images with at most two rows and columns; it is 0/1, marks with a pixel all pixels that are at least as bad, marks fewer pixels for a greater snr, none for a constant map, does not depend on scale and offset of the map nor on the positions of the values.", "quantifier": "all maps and values of snr", "why_tests_cant": "order properties over all images", "anchors": [{"file": "algotom/prep/phase.py", "symbol": "get_weight_mask"}]}
{"id": "C124", "title": "Background normalisation and automatic threshold", "statement": "normalize_background leaves constant images, and images with features covering less than half of every window of a uniform background, unchanged, scales with the image and keeps positive images positive; so does normalize_background_based_fft for constants and scale. calculate_threshold is refused exactly for images whose longer side is below 6 pixels, follows scale and offset of the grey values, and does not depend on the positions of the pixels, so that binarize_image finds the same dots after a change of exposure.", "quantifier": "all images, filter sizes, exposures", "why_tests_cant": "any image and any filter size", "anchors": [{"file": "algotom/util/calibration.py", "symbol": "normalize_background"}, {"file": "algotom/util/calibration.py", "symbol": "normalize_background_based_fft"}, {"file": "algotom/util/calibration.py", "symbol": "calculate_threshold"}, {"file": "algotom/util/calibration.py", "symbol": "binarize_image"}]}
{"id": "C125", "title": "Forward projection by the Fourier slice theorem", "statement": "make_sinogram refuses only images that are not square, an empty list of angles and negative padding; the row for angle 0 holds the column sums and that for pi/2 the row sums, last row first (of the image for zero padding, of the image continued by its border for edge padding); rows half a turn apart are mirror images of each other about the middle of the row; unpadded rows have the sum of the image at every angle; the sinogram is linear in the image.", "quantifier": "all images, angles, padding rates and modes", "why_tests_cant": "sums over images of any size and any interpolation", "anchors": [{"file": "algotom/util/simulation.py", "symbol": "make_sinogram"}]}
{"id": "C126", "title": "Options of the flat-field correction", "statement": "flat_field_correction applies the options in the order given (a call with options o1, o2 equals a call with o1 followed by one with o2 on the result); options that are None have no effect; a dictionary calls the named function, looked up in removal, then filtering, then phase, with its further values as arguments; unknown names and options that are not dictionaries raise ValueError. A stack is corrected as its sinograms are, one by one, with the rows of the flat field.", "quantifier": "all stacks, flat and dark fields, lists of options and processing functions", "why_tests_cant": "any chain of options and any processing function", "anchors": [{"file": "algotom/prep/correction.py", "symbol": "flat_field_correction"}]}
{"id": "C127", "title": "Converting a tif folder to hdf and back", "statement": "convert_tif_to_hdf writes one slice per file whose name contains the pattern and then .tif, in alphabetical order of the names and independent of the order of the directory; slice k is the requested window of the k-th image; it is refused if no file matches, if the crop leaves nothing, or if a later image is too small. Extracting all slices along an axis with extract_tif_from_hdf into a folder without tif files and converting the folder gives the slices back in order; the crop removes the given number of pixels on each side.", "quantifier": "all folders, patterns, crops, stacks and axes", "why_tests_cant": "number of files and their names are unbounded", "anchors": [{"file": "algotom/io/converter.py", "symbol": "convert_tif_to_hdf"}, {"file": "algotom/io/converter.py", "symbol": "extract_tif_from_hdf"}, {"file": "algotom/io/loadersaver.py", "symbol": "find_file"}]}
{"id": "C128", "title": "Grey values of image files", "statement": "load_image returns the mean of the channels of a colour image. save_image in formats other than tif writes an 8-bit image that keeps the order of the grey values, is 0 at the darkest and 255 exactly at the brightest pixels, determines every value to within one of 255 equal steps, and does not depend on unit and offset; only uniform and empty images cannot be scaled.", "quantifier": "all images", "why_tests_cant": "values of any image", "anchors": [{"file": "algotom/io/loadersaver.py", "symbol": "load_image"}, {"file": "algotom/io/loadersaver.py", "symbol": "save_image"}]}
{"id": "C129", "title": "gridrec reconstruction: padding and slices", "statement": "gridrec_reconstruction accepts exactly calls with as many angles as rows, a center inside the sinogram and a pad that does not make the padded width smaller than the sinogram (any pad >= 0 does not). The sinogram given to the external routine is the (logarithm of the) caller's, continued by its edge values to the smallest power of two that leaves pad columns on both sides, as evenly as possible, with the centre moved along; the image has the size of the sinogram's width and is zero outside the circle; a chunk is reconstructed slice by slice.", "quantifier": "all sinograms, chunks, centers, pads, ratios and external routines", "why_tests_cant": "widths and pads are unbounded", "anchors": [{"file": "algotom/rec/reconstruction.py", "symbol": "gridrec_reconstruction"}]}
{"id": "C130", "title": "astra reconstruction: methods, centring and slices", "statement": "astra_reconstruction accepts exactly the listed methods; without a GPU a CUDA method runs as its CPU counterpart (EM is refused). Every sinogram is continued by pad edge values on both sides and shifted so that the column of the rotation axis comes into the middle of the array; the image has the size of the sinogram's width and is zero outside the circle; a chunk is reconstructed slice by slice for any number of threads and any schedule.", "quantifier": "all sinograms, chunks, centers, methods, schedules", "why_tests_cant": "schedules and sizes are unbounded", "anchors": [{"file": "algotom/rec/reconstruction.py", "symbol": "astra_reconstruction"}, {"file": "algotom/rec/reconstruction.py", "symbol": "__astra_recon_single"}]}
{"id": "C131", "title": "Inverse double-wedge mask", "statement": "make_inverse_double_wedge_mask returns an array of the requested size with values 0 and 1: 1 exactly at the pixels more than hor_drop rows and more than ver_drop columns from the middle pixel and not farther sideways than the slope of the wedge allows. The middle row and column are 0, the mask is the same left and right of the middle, and it grows when the radius shrinks.", "quantifier": "all heights, widths, radii and drops", "why_tests_cant": "sizes are unbounded", "anchors": [{"file": "algotom/prep/calculation.py", "symbol": "make_inverse_double_wedge_mask"}]}
{"id": "C132", "title": "The centre of rotation does not depend on unit, offset and direction of scan", "statement": "Replacing the sinogram by a*sinogram + b multiplies the metric of every candidate centre by |a|; reversing the order of the projections leaves it unchanged; mirroring the detector moves it to the mirrored candidate. Hence coarse_search_cor, fine_search_cor and find_center_vo return the same centre for a*sinogram + b (a not 0) and for reversed projections, and the mirrored centre for a mirrored detector, whatever the number of workers and the order in which they finish; the centre returned by find_center_vo lies on the detector.", "quantifier": "all sinograms, factors, offsets, options, worker counts and schedules", "why_tests_cant": "data and schedules are unbounded", "anchors": [{"file": "algotom/prep/calculation.py", "symbol": "calculate_center_metric"}, {"file": "algotom/prep/calculation.py", "symbol": "coarse_search_cor"}, {"file": "algotom/prep/calculation.py", "symbol": "fine_search_cor"}, {"file": "algotom/prep/calculation.py", "symbol": "downsample_cor"}, {"file": "algotom/prep/calculation.py", "symbol": "find_center_vo"}]}
{"id": "C133", "title": "detect_sample does not depend on unit, offset and orientation", "statement": "detect_sample gives the same answer for a*sinogram + b (a not 0); for a 180-degree sinogram also for the mirrored detector and for the opposite order of projections; for a 360-degree sinogram for any start angle and for the sinogram turned by 180 degrees. It answers exactly for the types '180' and '360' and sinograms of at least 4 columns and 2 (360: 4) projections.", "quantifier": "all sinograms, factors, offsets and start angles", "why_tests_cant": "data are unbounded", "anchors": [{"file": "algotom/util/utility.py", "symbol": "detect_sample"}]}
{"id": "C134", "title": "Windows paths written as ordinary strings", "statement": "On Windows a path typed with single backslashes in an ordinary Python string, in which backslash-a, -b, -f, -n, -r, -t and -v have become control characters, is understood as typed (with forward slashes); paths without control characters only get forward slashes; a missing file is a ValueError.", "quantifier": "all paths", "why_tests_cant": "paths are unbounded", "anchors": [{"file": "algotom/io/loadersaver.py", "symbol": "__correct_path"}, {"file": "algotom/io/loadersaver.py", "symbol": "__get_path"}]}
{"id": "C135", "title": "Inputs of the post-processing functions: array, tif folder or hdf file", "statement": "A 3D array, a folder of tif files and a hdf dataset with the same data are reported with the same depth, height and width. Output paths without extension mean a tif folder, .hdf/.h5/.nxs a hdf file, others are refused; other inputs are refused with an error.", "quantifier": "all arrays, folders, files and paths", "why_tests_cant": "file systems and names are unbounded", "anchors": [{"file": "algotom/post/postprocessing.py", "symbol": "__get_input_type"}, {"file": "algotom/post/postprocessing.py", "symbol": "__get_output_type"}, {"file": "algotom/post/postprocessing.py", "symbol": "__get_shape"}]}
{"id": "C136", "title": "load_image_multiple loads every image once, in order", "statement": "load_image_multiple returns the images of the given paths in the order of the list, for any number of workers and any order in which they finish; it fails exactly when a file cannot be read or the sizes differ.", "quantifier": "all lists, worker counts and schedules", "why_tests_cant": "schedules are unbounded", "anchors": [{"file": "algotom/io/loadersaver.py", "symbol": "load_image_multiple"}]}
{"id": "C137", "title": "find_local_shifts_umpa equals the per-pixel search", "statement": "On the CPU (also when gpu=True without a CUDA device) find_local_shifts_umpa returns at every pixel that is at least margin + win_size//2 from the border the shift that minimises the UMPA cost of that pixel on the whole images, never larger than the margin, independent of chunk_size, number of cores and block; the outer border is zero; with dark_signal transmission and dark signal are the fit at the map entry nearest to the shift and the border repeats the nearest interior pixel. Stacks of different shape or too small are refused.", "quantifier": "all stacks, windows, margins, chunk sizes, filters and methods", "why_tests_cant": "images, chunk sizes and schedules are unbounded", "anchors": [{"file": "algotom/util/correlation.py", "symbol": "find_local_shifts_umpa"}, {"file": "algotom/util/correlation.py", "symbol": "__get_2d_shift_multi_rows_3d_input_umpa_cpu"}, {"file": "algotom/util/correlation.py", "symbol": "__calc_shift_umpa"}]}
{"id": "C138", "title": "find_local_shifts_umpa on the GPU agrees with the CPU and recovers a known shift", "statement": "The GPU search agrees with the CPU search with method diff to half a pixel, and exactly (shift, transmission, dark signal) where the smallest cost is not at the edge of the searched area, for any thread block and chunk sizes. On both, a sample that is an attenuated, blurred copy of the reference displaced by whole pixels gives a shift less than a pixel from the true one; if it is less than half a pixel away, transmission and dark signal are exact.", "quantifier": "all stacks, windows, margins, blocks, chunk sizes", "why_tests_cant": "images and launch configurations are unbounded", "anchors": [{"file": "algotom/util/correlation.py", "symbol": "__calc_shift_umpa_gpu_kernel"}, {"file": "algotom/util/correlation.py", "symbol": "__get_2d_shift_multi_rows_3d_input_umpa_gpu"}, {"file": "algotom/util/correlation.py", "symbol": "__accu_correlate"}, {"file": "algotom/util/correlation.py", "symbol": "find_local_shifts_umpa"}]}
{"id": "C139", "title": "UMPA results do not depend on the exposure", "statement": "Multiplying all sample intensities by c > 0 and all reference intensities by s > 0 leaves the shifts and the dark signal of find_local_shifts_umpa unchanged and multiplies the transmission by c/s, on the GPU and on the CPU with either method.", "quantifier": "all stacks and factors", "why_tests_cant": "images are unbounded", "anchors": [{"file": "algotom/util/correlation.py", "symbol": "find_local_shifts_umpa"}]}
{"id": "C140", "title": "Global shift on the GPU agrees with the CPU", "statement": "find_global_shift_based_local_shifts(gpu=True) refuses the same inputs as the CPU search; it uses the same points, its lists of local shifts differ entry by entry from those of the CPU (method 'diff') by at most half a pixel, so does the global value for every global_value, and they are equal if no point is best matched at the edge of the searched area. Images translated by the same integer shift in all windows give that shift to less than a pixel. Without an Nvidia GPU the CPU search is run.", "quantifier": "all images, window sizes, margins, point lists, block sizes, aggregations, CPU schedules and numbers of cores", "why_tests_cant": "The statement ranges over all images, point lists, launch configurations and pool schedules; the GPU branch is not run by the tests at all.", "anchors": [{"file": "algotom/util/correlation.py", "symbol": "find_global_shift_based_local_shifts"}, {"file": "algotom/util/correlation.py", "symbol": "_find_global_shift_based_local_shifts_gpu"}, {"file": "algotom/util/correlation.py", "symbol": "_get_local_shifts_gpu_kernel"}]}
{"id": "C141", "title": "Line target", "statement": "make_line_target(size) fails with IndexError exactly below 26 pixels (up to 60000); otherwise it returns a size x size image, symmetric under transposition, that is 1 in a disc around the centre and 0 elsewhere and on the lines: for every width w that fits, three lines of exactly w columns at distances 2w, narrow to wide on the right and wide to narrow on the left, size//16 high, and the same transposed. All lines are in the image and in the disc.", "quantifier": "all sizes from 0 to 60000", "why_tests_cant": "The claim ranges over all sizes; the unit tests look at one.", "anchors": [{"file": "algotom/util/simulation.py", "symbol": "make_line_target"}]}
{"id": "C142", "title": "Face phantom", "statement": "make_face_phantom(size) is symmetric about its central column, 0 outside the head, 1 on the ring of the head, and has values between 0 and 1.", "quantifier": "all sizes and pixels", "why_tests_cant": "The claim ranges over all sizes and pixels.", "anchors": [{"file": "algotom/util/simulation.py", "symbol": "make_face_phantom"}]}
{"id": "C143", "title": "Noise of a given ratio", "statement": "add_noise adds normal noise with the mean ratio times the mean of the non-zero pixels and half of it as the deviation: it fails exactly if that mean is negative, keeps the shape, leaves the image unchanged for ratio 0 and scales with the image. A non-negative image never fails for a ratio that is not negative. The exception is an image of zeros, for which the result is not-a-number everywhere.", "quantifier": "all images, ratios and values of the random numbers", "why_tests_cant": "The claim ranges over all images and all outcomes of the random generator.", "anchors": [{"file": "algotom/util/simulation.py", "symbol": "add_noise"}]}
{"id": "C144", "title": "Interrupted dataset writers can be run again", "statement": "When rescale_dataset or downsample_dataset, from a tif folder to another folder, is stopped anywhere (before, between or in the middle of writing files), no other folder and no other file of the output folder has changed; calling it again with overwrite=True leaves the disk exactly as the uninterrupted call would have, or fails as that would have; with overwrite=False it is refused as soon as the output folder exists. In any history of calls with overwrite=False, each run to its end or stopped anywhere, a folder that exists is never changed.", "quantifier": "all disks, arguments, crash points, contents of a half-written file and histories of calls", "why_tests_cant": "The claim ranges over all crash points and histories; tests run calls to their end.", "anchors": [{"file": "algotom/post/postprocessing.py", "symbol": "rescale_dataset"}, {"file": "algotom/post/postprocessing.py", "symbol": "downsample_dataset"}]}
{"id": "C145", "title": "The output folder is the data set", "statement": "After rescale_dataset or downsample_dataset into a tif folder (at most 100000 slices), reading the output folder back in order of names gives exactly the slices of the result, each once and in order.", "quantifier": "all disks, arguments and former contents of the output folder", "why_tests_cant": "The claim ranges over all numbers of slices and all former contents of the folder.", "anchors": [{"file": "algotom/post/postprocessing.py", "symbol": "rescale_dataset"}, {"file": "algotom/post/postprocessing.py", "symbol": "downsample_dataset"}]}
{"id": "C146", "title": "Processing a tif folder in place", "statement": "rescale_dataset and downsample_dataset with overwrite=True and the output folder equal to the input folder give the images that they would write to another folder.", "quantifier": "all folders and arguments", "why_tests_cant": "The claim ranges over all file names and numbers of slices; the order of reads and writes matters.", "anchors": [{"file": "algotom/post/postprocessing.py", "symbol": "rescale_dataset"}, {"file": "algotom/post/postprocessing.py", "symbol": "downsample_dataset"}]}
{"id": "C147", "title": "Interrupted reslicing can be run again", "statement": "When reslice_dataset from a tif folder to another folder or to an hdf file is stopped anywhere, including in the middle of writing a file or of the clean-up, no file has changed that is not part of the output, of the temporary folder or (hdf output) of the folder named like the output; the same call with overwrite=True then leaves the disk exactly as the uninterrupted call would have, or raises what that would have raised; with overwrite=False it is refused if the output exists and else does the same.", "quantifier": "all disks, arguments, crash points and contents of half-written files", "why_tests_cant": "The claim ranges over all crash points; tests run calls to their end.", "anchors": [{"file": "algotom/post/postprocessing.py", "symbol": "reslice_dataset"}]}
{"id": "C148", "title": "Reslicing writes the slices and cleans up", "statement": "After reslice_dataset from a tif folder every slice file (or slice of the hdf file) holds the resliced data, also when the output is the input folder; nothing temporary is left, and no other file has changed, whether the call succeeds or raises.", "quantifier": "all disks, arguments and chunk sizes", "why_tests_cant": "The claim ranges over all sizes, chunk sizes and former contents of the disk; the order of reads and writes matters when the output is the input.", "anchors": [{"file": "algotom/post/postprocessing.py", "symbol": "reslice_dataset"}]}
{"id": "C149", "title": "An interrupted script can be run again from its start", "statement": "A script of rescale_dataset, downsample_dataset and reslice_dataset calls on tif folders and of convert_tif_to_hdf and extract_tif_from_hdf calls, in which no call writes to its own input folder or to that of an earlier call, may be stopped anywhere, any number of times. Run again from the start with overwrite=True it leaves the disk as one uninterrupted run would have, or raises what that would have raised; meanwhile no file has changed except those the calls write.", "quantifier": "all disks, scripts, numbers of attempts, crash points and contents of half-written files", "why_tests_cant": "The claim ranges over all histories of interrupted attempts; tests run calls to their end.", "anchors": [{"file": "algotom/post/postprocessing.py", "symbol": "rescale_dataset"}, {"file": "algotom/post/postprocessing.py", "symbol": "downsample_dataset"}, {"file": "algotom/post/postprocessing.py", "symbol": "reslice_dataset"}]}
{"id": "C150", "title": "The visual search on vertical slices writes one correct file per candidate centre", "statement": "find_center_visual_vertical_slices writes, for each candidate from start to stop, a file named after the candidate that holds the vertical slice vertical_reconstruction would give about it (after the logarithm if asked for), with the part outside the field of view common to all candidates set to zero if masking is on. If all candidates are on the detector no error is raised; chunk size, device and thread schedule do not matter.", "quantifier": "all projection stacks, slice positions, tilt angles, candidate ranges, ramp and masking options, chunk sizes, devices and schedules", "why_tests_cant": "The files depend on the interplay of candidate range, mask and thread schedule; tests count the files of one call.", "anchors": [{"file": "algotom/rec/vertrec.py", "symbol": "find_center_visual_vertical_slices"}]}
{"id": "C151", "title": "The metric search on vertical slices returns the first best candidate whatever the schedule", "statement": "find_center_vertical_slice with float candidates on the detector returns the first candidate whose slice, reconstructed from the smoothed projections after the logarithm and masked, has the smallest metric (the largest with invert_metric); the result is the same for every chunk size, device, number of threads and schedule. An unknown metric raises ValueError.", "quantifier": "all projection stacks, candidate ranges, metrics including functions given by the user, options, chunk sizes, devices and schedules", "why_tests_cant": "No test can compare all candidates of all inputs under all schedules.", "anchors": [{"file": "algotom/rec/vertrec.py", "symbol": "find_center_vertical_slice"}]}
{"id": "C152", "title": "The autocorrelation metric of a slice is its mean row energy", "statement": "The autocorrelation metric is the mean over rows of the row's sum of squares: never negative, zero exactly for the zero image, scaled by c^2 when the image is multiplied by c, unchanged when rows are exchanged or pixels are moved within their row. An image without rows or columns raises ValueError.", "quantifier": "all real images of all sizes", "why_tests_cant": "An identity over all images; the code goes through two Fourier transforms and a maximum.", "anchors": [{"file": "algotom/rec/vertrec.py", "symbol": "__calculate_autocorrelation_coefficient"}]}
{"id": "C153", "title": "Converting a tif folder to hdf touches nothing but its file and can be repeated after a stop", "statement": "convert_tif_to_hdf, run step by step on a disk, leaves in the output file the cropped images in file order (or raises what the conversion of the arrays raises). Stopped anywhere or complete, it changes no other file. If the output file is not itself matched by the input pattern, a stopped conversion started again ends with the disk of an uninterrupted one, and raises what that would raise.", "quantifier": "all disks, patterns, crops, numbers and shapes of images, and all points at which the call is stopped, also in the middle of writing", "why_tests_cant": "Tests do not kill the process; the crash points and disk contents are unbounded.", "anchors": [{"file": "algotom/io/converter.py", "symbol": "convert_tif_to_hdf"}]}
{"id": "C154", "title": "Extracting tifs from hdf touches nothing but its images and can be repeated after a stop", "statement": "extract_tif_from_hdf, run step by step on a disk, leaves in the output folder one image per index with the content of that slice (or raises what the extraction of the array raises). Stopped anywhere or complete, it changes nothing but files named prefix_number.tif in that folder. Started again after a stop it ends with the disk of an uninterrupted run. Extracting all slices (at most 100000) into a folder without tif files and converting the folder gives a file with the slices in order.", "quantifier": "all disks, axes, indices, crops, prefixes, and all points at which the call is stopped, also in the middle of writing", "why_tests_cant": "Tests do not kill the process; the crash points and disk contents are unbounded.", "anchors": [{"file": "algotom/io/converter.py", "symbol": "extract_tif_from_hdf"}]}
{"id": "C155", "title": "The overlap search finds an exact overlap", "statement": "If the last v columns of the first image are the first v of the second (side 1; mirrored for side 0) - after the gaussian filter, with denoise=True, which mixes in what lies outside the overlap - find_overlap returns an overlap within half a pixel of v and find_center_360 a centre within a quarter of a pixel, for every choice of denoise, norm and use_overlap, provided no other window of the first image is a positive affine copy of the one looked for and no window is constant. The result does not depend on ncore or the thread schedule. Without denoise, changing gain and offset of either image (gain only with norm) changes nothing; side=None returns the result of the side with the larger curvature; find_overlap_multiple is find_overlap of consecutive images.", "quantifier": "all image sizes, contents, overlaps, window widths, sides, options, numbers of threads and schedules", "why_tests_cant": "The images, overlaps and schedules are unbounded; tests use one noise-free pair.", "anchors": [{"file": "algotom/prep/calculation.py", "symbol": "find_overlap"}, {"file": "algotom/prep/calculation.py", "symbol": "search_overlap"}, {"file": "algotom/prep/calculation.py", "symbol": "calculate_curvature"}, {"file": "algotom/prep/calculation.py", "symbol": "correlation_metric"}, {"file": "algotom/prep/calculation.py", "symbol": "find_overlap_multiple"}, {"file": "algotom/prep/calculation.py", "symbol": "find_center_360"}]}
{"id": "C156", "title": "The rows used by find_center_projection are those asked for", "statement": "find_center_projection uses rows inside the image, chunk_height of them (at least one), starting at start_row when the chunk fits; no other row affects the result.", "quantifier": "all image heights, chunk heights (absent, integer, ratio) and start rows", "why_tests_cant": "Tests use the default chunk.", "anchors": [{"file": "algotom/prep/calculation.py", "symbol": "find_center_projection"}]}
{"id": "C157", "title": "180-degree sinograms are completed to 360 degrees and filtered like them", "statement": "convert_sinogram_180_to_360 returns 2n-1 rows; the first n are the input; row n-1+i is row i mirrored about the axis (outer column repeated beyond the detector) when the axis is a whole number of pixels from the middle of the detector, so that an ideal scan of 180 degrees becomes one of 360; constants stay constant for every axis. double_wedge_filter keeps the shape for both types, is linear, returns its input for a mask of ones and constant sinograms without a mask; for 180 degrees it is the 360-degree filter of the converted sinogram cut to n rows; it raises ValueError exactly for another type, a 180-degree sinogram with center 0, or a mask whose shape is not that of the padded 360-degree sinogram.", "quantifier": "all sinograms, axes, masks, pads, ratios and iteration numbers", "why_tests_cant": "The sizes, axes and masks are unbounded; tests use one sinogram.", "anchors": [{"file": "algotom/prep/conversion.py", "symbol": "convert_sinogram_180_to_360"}, {"file": "algotom/prep/filtering.py", "symbol": "double_wedge_filter"}]}
{"id": "C158", "title": "join_image_multiple lays out any number of images in order", "statement": "join_image_multiple of n images with whole, non-negative joint widths (side 1) returns the images side by side: its width is the sum of the widths and gaps; every column away from the seams is the image's own column times that image's factor; each seam is the straight line between the columns next to it; with norm the factors make the three-column means on both sides of every seam equal, without norm they are 1. total_width only repeats the last column. For any non-negative joint widths and sides it succeeds exactly for at least two images of one height with a joint per neighbouring pair, and join_image widens by the rounded joint width.", "quantifier": "all numbers, sizes (at least six columns) and contents of images, gaps, and both values of norm", "why_tests_cant": "Tests join two images.", "anchors": [{"file": "algotom/prep/conversion.py", "symbol": "join_image_multiple"}, {"file": "algotom/prep/conversion.py", "symbol": "join_image"}]}
{"id": "C159", "title": "Phase correlation finds a whole-pixel shift exactly", "statement": "If the first image is the second one moved by whole pixels (circularly, or inside a uniform border of four pixels with gradient=True), with any non-zero change of contrast (and any offset with gradient=True), find_shift_based_phase_correlation returns exactly the displacement in (-n/2, n/2] along each axis, provided no other roll of the image is a multiple of it (e.g. its strongest pixel is unique). For any two images of one shape it returns a shift of at most half the size plus half a pixel; contrast (and offsets, with gradient=True) never matter; exchanging the images reverses the shift, up to whole turns, if the correlation has a single highest point. Other shapes raise ValueError.", "quantifier": "all image sizes and contents, displacements, contrast factors and offsets, both values of gradient", "why_tests_cant": "Tests try one displacement of one image; that the peak is unique and its neighbours are equal is an argument about all spectra.", "anchors": [{"file": "algotom/prep/calculation.py", "symbol": "find_shift_based_phase_correlation"}, {"file": "algotom/prep/calculation.py", "symbol": "complex_gradient"}]}
{"id": "C160", "title": "The centre from two mirrored projections is exact in the middle half of the detector", "statement": "If the projection at 0 degrees is the mirror image of the one at 180 degrees about the column c (whole or half pixel), with any vertical displacement and change of contrast, find_center_based_phase_correlation returns c if c is in the middle half of the detector (-w < 2(2c - w + 1) <= w), and otherwise c plus a multiple of half the width.", "quantifier": "all image sizes and contents (no roll of which is a multiple), centres, vertical displacements, contrast factors and offsets, both values of gradient", "why_tests_cant": "No set of test images covers all centres and contents.", "anchors": [{"file": "algotom/prep/calculation.py", "symbol": "find_center_based_phase_correlation"}]}
{"id": "C161", "title": "Local shifts of two single images do not depend on the device or the chunk size", "statement": "find_local_shifts on two 2D images returns the same shifts for every chunk_size and thread block on the GPU; they agree with the CPU result (method 'diff', any number of cores and schedule) to half a pixel in each direction, exactly where the largest correlation is not at the edge of the searched area; at the edge the GPU returns the whole-pixel shift; windows translated by whole pixels are found to less than a pixel. Images of different shapes or too small are refused; gpu=True without a GPU runs the CPU search and 'hybrid' is the GPU search.", "quantifier": "all images, window sizes, margins, chunk sizes, blocks, core numbers, schedules and both values of norm", "why_tests_cant": "The images, sizes and schedules are unbounded and the tests have no GPU.", "anchors": [{"file": "algotom/util/correlation.py", "symbol": "find_local_shifts"}, {"file": "algotom/util/correlation.py", "symbol": "_get_2d_shift_full_image_2d_input_gpu"}, {"file": "algotom/util/correlation.py", "symbol": "_get_2d_shift_multi_rows_2d_input_gpu"}]}
{"id": "C162", "title": "Centre searches by reconstruction use the method asked for", "statement": "find_center_based_slice_metric and find_center_visual_slices reconstruct every candidate by the public function the argument method names (dfi, gridrec, fbp, bpf, astra), about the candidate, with the caller's angles, ratio, filter and logarithm and the defaults of that function for the rest, and refuse other names; every method accepts exactly the centres on the detector and gives a square image as wide as the sinogram, zero outside the circle; without zoom the visual search therefore writes an image for every candidate; without logarithm the centre found does not change when the sinogram is multiplied by a positive factor, whatever the method.", "quantifier": "all sinograms with at least two rows and columns, centres, angles, ratios, filters, methods, GPU or not", "why_tests_cant": "Compares five functions for every centre and option; tests run one or two methods on one phantom.", "anchors": [{"file": "algotom/rec/reconstruction.py", "symbol": "_reconstruct_slice"}, {"file": "algotom/rec/reconstruction.py", "symbol": "find_center_based_slice_metric"}, {"file": "algotom/rec/reconstruction.py", "symbol": "find_center_visual_slices"}]}
{"id": "C163", "title": "Overlaps and joint widths that are not whole numbers keep the images aligned", "statement": "stitch_image called with an overlap, and join_image with a joint_width, that is not a whole number compensates the fraction by sub-pixel shifts: if the two images show one scene at exactly that distance, the part of the result coming from the left image and the part coming from the right image show the scene with one common offset.", "quantifier": "all scenes, image sizes, both sides, all fractional overlaps and joint widths, every shift routine exact for the scene", "why_tests_cant": "A scene on a real axis and every fraction; tests use whole numbers or look at the shape only.", "anchors": [{"file": "algotom/prep/conversion.py", "symbol": "stitch_image"}, {"file": "algotom/prep/conversion.py", "symbol": "join_image"}]}
{"id": "C164", "title": "Errors of the per-slice method reach the caller", "statement": "If the method given to parallel_process_slices raises for some slice, the call raises; if the call raises, the exception is one the method raised for some slice, or a ValueError because two results have different shapes; otherwise the array of all results is returned. No partial array is ever returned, whatever the axis, the number of workers and the order of events.", "quantifier": "every 3D array, every per-slice function (failing for any set of slices), axis, worker count and interleaving", "why_tests_cant": "which task fails first depends on the schedule", "anchors": [{"file": "algotom/util/utility.py", "symbol": "parallel_process_slices"}]}
{"id": "C165", "title": "norm_global of the local-shift search does not change the shifts", "statement": "Switching norm_global on in find_local_shifts (it rescales each whole stack before the search) does not change the shifts: correlation coefficients do not see a positive affine change of the grey values.", "quantifier": "all stacks that are not flat, window sizes, margins, chunk sizes, thread blocks, sub-pixel methods and both directions, on the CPU and the GPU", "why_tests_cant": "tests compare with a tolerance on a few random stacks", "anchors": [{"file": "algotom/util/correlation.py", "symbol": "find_local_shifts"}, {"file": "algotom/util/correlation.py", "symbol": "normalize_image"}]}
{"id": "C166", "title": "Unwarping follows the radial distortion model", "statement": "unwarp_projection(proj, xcenter, ycenter, list_fact) has the shape of proj and its pixel (i, j) is the bilinear interpolation of proj at the point (ycenter + F (i - ycenter), xcenter + F (j - xcenter)) with F = sum_k list_fact[k] r^k at the distance r of the pixel from the centre, moved to the border if it is outside; list_fact=[1] changes nothing. unwarp_sinogram(data, index, ..., (start, stop, step)) returns row index of the unwarped projections start, start+step, ... in that order; a zero step raises ValueError and projections that do not exist IndexError.", "quantifier": "all images, centres, coefficient lists, rows, ranges (also negative steps and indices)", "why_tests_cant": "a test checks one model on one image", "anchors": [{"file": "algotom/prep/correction.py", "symbol": "unwarp_projection"}, {"file": "algotom/prep/correction.py", "symbol": "unwarp_sinogram"}]}
{"id": "C167", "title": "A fitted image follows polynomials", "statement": "generate_fitted_image(mat, order, axis, num_chunk) has the shape of mat; each value is the value at the centre of the least-squares polynomial of degree at most order through the largest odd number of pixels not above length/num_chunk around it along the axis (pixels mirrored at the ends); in particular lines that are polynomials of degree at most order are returned unchanged.", "quantifier": "all images, orders below the window length, numbers of chunks and both axes", "why_tests_cant": "a test fits one random image", "anchors": [{"file": "algotom/util/utility.py", "symbol": "generate_fitted_image"}]}
{"id": "C168", "title": "The device of find_local_shifts on stacks does not matter", "statement": "find_local_shifts on two stacks gives the same shifts on the CPU, with gpu=True and with gpu='hybrid', for both values of dim, every chunk size, thread block and normalisation: exactly in one direction with method diff (errors included), exactly between CPU and hybrid in two directions, to half a pixel between CPU and GPU in two directions; gpu=True without a GPU runs the CPU search.", "quantifier": "all stacks of the same shape that vary, window sizes, margins >= 1, chunk sizes without empty chunks, blocks, sub-pixel methods, both normalisation options", "why_tests_cant": "the agreement must hold for every input and every combination of options, and the GPU branches do not run on machines without one", "anchors": [{"file": "algotom/util/correlation.py", "symbol": "find_local_shifts"}, {"file": "algotom/util/correlation.py", "symbol": "_get_1d_shift_full_image_3d_input_gpu"}, {"file": "algotom/util/correlation.py", "symbol": "_get_2d_shift_full_image_3d_input_cpu_gpu"}]}
{"id": "C169", "title": "Wavelet decomposition and reconstruction are inverse", "statement": "For every image with both sides at least 16, every level argument and every wavelet with perfect reconstruction, apply_wavelet_reconstruction applied to the result of apply_wavelet_decomposition gives the image back, in the shape of the image; the number of levels and the shapes of the components are determined by the image and the filter length; a constant image has zero details at every level; ignoring a level removes exactly what its details contribute.", "quantifier": "all images, levels and wavelets with perfect reconstruction", "why_tests_cant": "the identity must hold for every size (parity, short signals where the extension wraps more than once), level and filter", "anchors": [{"file": "algotom/util/utility.py", "symbol": "apply_wavelet_decomposition"}, {"file": "algotom/util/utility.py", "symbol": "apply_wavelet_reconstruction"}]}
{"id": "C170", "title": "Stripe and zinger removal do not depend on the unit of the data", "statement": "For every sinogram, every choice of parameters and every k > 0, removing stripes from k times the sinogram gives k times the result of removing stripes from the sinogram, and raises in exactly the same cases: sorting, filtering, 2D filtering and sorting, normalization, large stripes, dead stripes, all stripes, FFT, wavelet-FFT, interpolation; likewise remove_zinger.", "quantifier": "all sinograms, parameters and positive factors", "why_tests_cant": "thresholds inside the methods could depend on the absolute level for some data only; a test fixes one scale", "anchors": [{"file": "algotom/prep/removal.py", "symbol": "remove_stripe_based_sorting"}, {"file": "algotom/prep/removal.py", "symbol": "remove_stripe_based_filtering"}, {"file": "algotom/prep/removal.py", "symbol": "remove_stripe_based_2d_filtering_sorting"}, {"file": "algotom/prep/removal.py", "symbol": "remove_stripe_based_normalization"}, {"file": "algotom/prep/removal.py", "symbol": "remove_large_stripe"}, {"file": "algotom/prep/removal.py", "symbol": "remove_dead_stripe"}, {"file": "algotom/prep/removal.py", "symbol": "remove_all_stripe"}, {"file": "algotom/prep/removal.py", "symbol": "remove_stripe_based_fft"}, {"file": "algotom/prep/removal.py", "symbol": "remove_stripe_based_wavelet_fft"}, {"file": "algotom/prep/removal.py", "symbol": "remove_stripe_based_interpolation"}, {"file": "algotom/prep/removal.py", "symbol": "remove_zinger"}]}
{"id": "C171", "title": "Stripe removal with sorting does not depend on the order of the projections", "statement": "For every sinogram and every permutation of its projections, sorting-based, large-stripe and interpolation-based removal, normalization in one chunk, and normalization, fitting, FFT and wavelet-FFT removal with sort=True give the permuted result, and raise in exactly the same cases.", "quantifier": "all sinograms, permutations of the rows, parameters and sorting algorithms", "why_tests_cant": "there are n! orders; the sorting algorithm of numpy is not stable, so equal values decide", "anchors": [{"file": "algotom/prep/removal.py", "symbol": "remove_stripe_based_sorting"}, {"file": "algotom/prep/removal.py", "symbol": "remove_large_stripe"}, {"file": "algotom/prep/removal.py", "symbol": "remove_stripe_based_interpolation"}, {"file": "algotom/prep/removal.py", "symbol": "remove_stripe_based_normalization"}, {"file": "algotom/prep/removal.py", "symbol": "remove_stripe_based_fitting"}, {"file": "algotom/prep/removal.py", "symbol": "remove_stripe_based_fft"}, {"file": "algotom/prep/removal.py", "symbol": "remove_stripe_based_wavelet_fft"}]}
{"id": "C172", "title": "Stripe and zinger removal treat left and right alike", "statement": "For every sinogram, with every row reversed the stripe and zinger removal methods (sorting, filtering, normalization, FFT-based, large, dead and all stripes, interpolation, zingers) give the result with every row reversed, and raise in exactly the same cases.", "quantifier": "all sinograms, parameters and sorting algorithms", "why_tests_cant": "an off-by-one in a window, a mask or an interpolation shows at particular positions of a stripe only", "anchors": [{"file": "algotom/prep/removal.py", "symbol": "remove_stripe_based_sorting"}, {"file": "algotom/prep/removal.py", "symbol": "remove_stripe_based_normalization"}, {"file": "algotom/prep/removal.py", "symbol": "remove_large_stripe"}, {"file": "algotom/prep/removal.py", "symbol": "remove_dead_stripe"}, {"file": "algotom/prep/removal.py", "symbol": "remove_all_stripe"}, {"file": "algotom/prep/removal.py", "symbol": "remove_stripe_based_interpolation"}, {"file": "algotom/prep/removal.py", "symbol": "remove_zinger"}, {"file": "algotom/prep/removal.py", "symbol": "remove_stripe_based_filtering"}, {"file": "algotom/prep/removal.py", "symbol": "remove_stripe_based_fft"}]}
{"id": "C173", "title": "Sorting-based stripe removal commutes with the logarithm", "statement": "For every sinogram and every column without repeated values, remove_stripe_based_sorting with a 1D median window (dim=1) commutes with every strictly increasing change of grey values (any window size) and with every strictly decreasing one (odd window sizes); in particular with the -log transform of positive transmissions, so it can be applied before or after it.", "quantifier": "all sinograms, window sizes, sorting algorithms and strictly monotone changes of grey values", "why_tests_cant": "tests compare one sinogram before and after one transform; monotone maps form an infinite family", "anchors": [{"file": "algotom/prep/removal.py", "symbol": "remove_stripe_based_sorting"}, {"file": "algotom/util/utility.py", "symbol": "sort_forward"}, {"file": "algotom/util/utility.py", "symbol": "sort_backward"}]}
{"id": "C174", "title": "Offsets and beam fluctuations pass through stripe removal", "statement": "For every sinogram, adding one constant to all values adds that constant to the result of every stripe removal method based on sorting, filtering (with or without sorting, 1D or 2D), normalization, regularization (apply_log=False) and wavelet-FFT, or both calls raise the same exception; without sorting the same holds for a different constant for every projection (a fluctuating beam), and for regularization with apply_log=True for a positive factor for every projection (one factor with sorting). Stripe removal thus neither creates nor removes differences between projections as a whole.", "quantifier": "all sinograms, offsets and profiles over projections, window sizes, wavelets with perfect reconstruction, chunk counts and sorting algorithms that compare values", "why_tests_cant": "tests use one sinogram and one offset; profiles over projections are arbitrary functions", "anchors": [{"file": "algotom/prep/removal.py", "symbol": "remove_stripe_based_sorting"}, {"file": "algotom/prep/removal.py", "symbol": "remove_stripe_based_filtering"}, {"file": "algotom/prep/removal.py", "symbol": "remove_stripe_based_normalization"}, {"file": "algotom/prep/removal.py", "symbol": "remove_stripe_based_regularization"}, {"file": "algotom/prep/removal.py", "symbol": "remove_stripe_based_wavelet_fft"}, {"file": "algotom/prep/removal.py", "symbol": "remove_stripe_based_2d_filtering_sorting"}]}
{"id": "C175", "title": "Flat-field correction does not depend on gain, offset and orientation of the detector", "statement": "If projections, flat field and dark field are read out as a*x + b (a not 0), flat_field_correction with a dark field and equal exposure times returns the same images, sinograms or stacks, whatever further options, unless flat minus dark sums to zero; with b = 0 also without dark field and for every exposure ratio. If rows and columns of projections, flat and dark field are rearranged in the same way (mirrored, rolled, permuted), so is the result; the projections of a sinogram or stack may be in any order.", "quantifier": "all images, sinograms and stacks with any dead pixels, gains, offsets, ratios and permutations", "why_tests_cant": "tests compare a few values of one image; data, gains and permutations are unbounded", "anchors": [{"file": "algotom/prep/correction.py", "symbol": "flat_field_correction"}]}
{"id": "C176", "title": "Frequency filters follow exposure, thickness and orientation", "statement": "For every ratio >= 0, pad and size, fresnel_filter of c*image (c > 0) is c times the filtered image, with and without logarithm; with the logarithm the filtered product image1**a * image2**b (two absorbers in the beam) is the product of the filtered images to these powers, and filtered images are positive. A mirrored sinogram (dim=1) gives the mirrored result, a projection turned by 180 degrees (dim=2) the turned result; each row of a sinogram is filtered on its own. mtf_deconvolution is linear; it and apply_gaussian_filter return the turned result for an image turned by 180 degrees, and separate_frequency_component along the columns the mirrored parts for a mirrored image, whatever the window. double_wedge_filter of a 360-degree sinogram turned by 180 degrees (projections in the reverse order, detector mirrored) gives the turned result, for every real mask, ratio, padding and number of iterations.", "quantifier": "all positive images, exponents, factors, ratios and pads", "why_tests_cant": "images and parameters are continuous; an off-centre window shows as a small asymmetry only", "anchors": [{"file": "algotom/prep/filtering.py", "symbol": "fresnel_filter"}, {"file": "algotom/prep/filtering.py", "symbol": "make_fresnel_window"}, {"file": "algotom/prep/correction.py", "symbol": "mtf_deconvolution"}, {"file": "algotom/util/utility.py", "symbol": "separate_frequency_component"}, {"file": "algotom/util/utility.py", "symbol": "apply_gaussian_filter"}, {"file": "algotom/prep/filtering.py", "symbol": "double_wedge_filter"}]}
{"id": "C177", "title": "The double-wedge filter does not depend on where a full scan starts", "statement": "For every 360-degree sinogram, shifting the projections cyclically by any number (the scan starts at another angle) shifts the result of double_wedge_filter in the same way and changes nothing else; the filter is linear in the sinogram. Both for every number of iterations, ratio, padding and real mask, the default one or the caller's.", "quantifier": "all sinograms, shifts, factors, masks, ratios, paddings and numbers of iterations", "why_tests_cant": "an off-by-one in the frequency order or the crop leaves most sinograms plausible; shifts and masks are unbounded", "anchors": [{"file": "algotom/prep/filtering.py", "symbol": "double_wedge_filter"}, {"file": "algotom/prep/filtering.py", "symbol": "make_double_wedge_mask"}]}
