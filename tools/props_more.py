# ---------------------------------------------------------------- additions
p("Concurrent non-overwriting saves keep both images",
  "When two processes call save_image(path, img, overwrite=False) on the same path at the same time, then whatever the interleaving of their file-system steps, after both return both images are on disk.",
  "every interleaving of the name search and the write of the two callers, every initial directory content",
  "a lost file needs a particular interleaving between existence check and write",
  (L,"save_image"),(L,"make_file_name"))
p("Distortion coefficient file round trip",
  "load_distortion_coefficient applied to a file written by save_distortion_coefficient returns exactly the saved xcenter, ycenter and list of factors, for any number of factors (including none).",
  "all centres and factor lists of any length",
  "unbounded list lengths (factor10, factor11, ... keys) and values",
  (L,"save_distortion_coefficient"),(L,"load_distortion_coefficient"))

p("Stitching integer-typed images blends like floating ones",
  "stitch_image on integer-typed images (as read from a camera) blends with the same fractional weights as on floating-point copies of the images.",
  "all integer images, sizes and overlaps",
  "dtype dependent; the tests use floating images",
  (PC,"stitch_image"),(PC,"make_weight_matrix"))
p("The centre metric compares with the mirror image",
  "For every trial centre the array that calculate_center_metric compares with the sinogram is its mirror image about that centre (interpolated off the half-pixel grid) where the mirrored position is on the detector, and the up-down flipped sinogram elsewhere; no wrapped-around column is used.",
  "all sinogram sizes and trial centres on the detector",
  "wrap-around errors affect only a few columns for particular centres",
  (CA,"calculate_center_metric"))

p("Flat-field correction of integer data never divides by zero",
  "flat_field_correction on integer-typed arrays with an integer ratio returns finite values: every pixel where flat equals dark is replaced by a non-zero denominator.",
  "all integer projections, flats, darks",
  "dtype dependent; needs a mean below one",
  (CO,"flat_field_correction"))
p("Tilted sinograms",
  "generate_tilted_sinogram(data, index, angle) samples each whole projection (bilinear interpolation) along the tilted line through the row, generate_tilted_sinogram_chunk stacks exactly the single tilted sinograms of its rows, and angle 0 gives the plain sinogram data[:, index, :].",
  "all data sets, rows, angles (also lines leaving the image)",
  "slab boundaries depend on the angle; all angles",
  (CO,"generate_tilted_sinogram"),(CO,"generate_tilted_sinogram_chunk"),(CO,"generate_tilted_profile_chunk"),(CO,"generate_tilted_profile_line"))

p("Low-pass filters keep constant images",
  "The low-pass part of separate_frequency_component (gaussian window) and apply_gaussian_filter return a constant image unchanged (a low-pass filter has gain one at frequency zero).",
  "all sizes, window widths, pads",
  "the deviation is tiny for the default sizes, tests compare with loose tolerances",
  (U,"separate_frequency_component"),(U,"apply_gaussian_filter"))
p("Surface from gradients solves the Poisson equation",
  "reconstruct_surface_from_gradient_SCS_method (pad=0) returns, for gradients of equal shape, a surface of the same shape whose periodic five-point Laplacian equals the central-difference divergence of the gradients at every pixel; with correct_negative all heights are non-negative; unequal shapes raise ValueError.",
  "all gradient images of every size",
  "an exact identity over all images",
  (PH,"reconstruct_surface_from_gradient_SCS_method"))
p("Wavelet-FFT damping removes ideal stripes",
  "The damping step of remove_stripe_based_wavelet_fft maps a wavelet detail image that is constant along the angular axis (an ideal stripe) to zero.",
  "all detail sizes (even and odd), both window names, all damping sizes",
  "depends on the parity of the detail's height",
  (U,"make_2d_damping_window"),(RM,"remove_stripe_based_wavelet_fft"))
p("FFT stripe window is centred on the zero frequency",
  "The butterworth window of remove_stripe_based_fft is symmetric about the zero-frequency row/column of the shifted spectrum and its damped rows contain the zero row frequency.",
  "all sizes and window parameters",
  "off-by-one shift depending on parity",
  (U,"make_2d_butterworth_window"),(RM,"remove_stripe_based_fft"))

p("Integer translations are recovered",
  "find_shift_based_correlation_map on two images of the same size that are related by a unique integer translation within the margin (up to brightness and contrast) returns that translation: exactly without sub-pixel search, within half a pixel (dim=1) or one pixel (dim=2) with it.",
  "all image sizes, margins, contents, brightness/contrast changes, translations and sub-pixel methods",
  "all images; small sizes skip the search silently",
  (CR,"find_shift_based_correlation_map"),(CR,"locate_peak"),(CR,"generate_correlation_map"))

p("Local translations are recovered pixel by pixel",
  "find_local_shifts returns, at every pixel whose window in the second stack is an integer translation (within the margin, and the only one) of the reference up to brightness and contrast, that translation: exactly without sub-pixel search and to less than one pixel with method diff, whatever the chunk size and normalisation. In one-direction mode the same holds for every line, to half a pixel.",
  "all stacks, window sizes, margins, chunk sizes, translation fields",
  "all images and all displacement fields, all chunkings",
  (CR,"find_local_shifts"),(CR,"find_shift_based_correlation_map"))
p("Global translation from local searches",
  "find_global_shift_based_local_shifts uses exactly the given points that lie inside the image by the window and margin (or the random ones), and if the windows of these points are translated by one common vector it returns that vector: exactly without sub-pixel search, to less than one pixel with it, for every aggregation and every schedule of the workers.",
  "all images, point lists, random choices, worker schedules, aggregations",
  "all images and schedules",
  (CR,"find_global_shift_based_local_shifts"),(CR,"__get_input_list"))

p("Background fluctuation only attenuates",
  "add_background_fluctuation multiplies each row by a symmetric bell-shaped profile in (0,1], circularly shifted by at most strength*width/4: shape kept, no absolute value grows, signs and zeros are kept, whatever the random numbers.",
  "all sinograms, strengths in [0,1], random numbers",
  "all random numbers",
  (SI,"add_background_fluctuation"))
p("Phantom masks follow the geometry",
  "make_elliptic_mask / make_rectangular_mask are 1 exactly at the pixels inside the figure with the given centre, axis lengths and counter-clockwise angle (1% tolerance) and 0 elsewhere: half turns change nothing, integer moves of the centre move the mask, for odd sizes 90 degrees more is np.rot90, larger lengths give larger masks, the angle of a circle does not matter; ellipses and triangles lie inside their rectangle and the triangle mask is 0/1.",
  "all sizes, centres, lengths, angles",
  "continuous parameters",
  (SI,"make_elliptic_mask"),(SI,"make_rectangular_mask"),(SI,"make_triangular_mask"))
p("Spiral positions",
  "generate_spiral_positions either returns num_pos distinct positions inside the field of view, the i-th at distance step*sqrt(i) from the centre, or raises ValueError, the latter iff some position is outside.",
  "all steps, numbers, image sizes and spiral shapes",
  "continuous parameters",
  (U,"generate_spiral_positions"))

CAL="algotom/util/calibration.py"
p("Ellipse fit is exact",
  "fit_points_to_ellipse returns, for six or more points of any ellipse (five of them distinct), the lengths of the long and the short axis, the angle of the long axis in (-90,90] degrees (0 for a circle) and the centre; for any points the returned axes are ordered and the angle is within [-90,90]; unequal lengths raise ValueError.",
  "all ellipses, all point sets",
  "continuous parameters; the sign of the singular vector is arbitrary",
  (CAL,"fit_points_to_ellipse"))
p("Tilt and roll of the rotation axis",
  "find_tilt_roll returns tilt 0 and the direction of the line for points on a straight line with both methods, the direction of the long axis and the tilt of the circle seen as an ellipse for points on an ellipse, angles in [0,90] and [-90,90] for all inputs, and raises only for unequal lengths, unknown methods and fewer than two points.",
  "all point sets and methods",
  "continuous parameters",
  (CAL,"find_tilt_roll"),(CAL,"find_tilt_roll_based_linear_fit"),(CAL,"find_tilt_roll_based_ellipse_fit"))
p("Only small zingers are treated",
  "With check_size, select_zinger keeps exactly the connected regions of the mask with at most max_size pixels, whole, and drops the others.",
  "all masks and size limits",
  "all shapes and arrangements of regions",
  (RM,"select_zinger"),(RM,"check_zinger_size"))
p("Dots and the distance between them",
  "binarize_image rejects thresholds outside the range of the image, returns 0/1 with dots as the minority whatever the contrast, and calculate_distance gives the distance between the centroids of the dots of the selected size, whatever the order of the images and the size option.",
  "all images, thresholds, options",
  "all images",
  (CAL,"binarize_image"),(CAL,"invert_dot_contrast"),(CAL,"get_dot_size"),(CAL,"select_dot_based_size"),(CAL,"calculate_distance"))

p("Stripe detection depends on relative contrast only",
  "detect_stripe returns a 0/1 mask of the same length in which the mark of a value depends neither on its position nor on the unit and offset of the data; the unmarked values form an interval; a larger snr never marks more; values standing out of evenly spread ones (at most a quarter, by snr times the spread) are exactly the marked ones; data without spread raises ValueError.",
  "all lists of 3 or at least 5 values and all snr",
  "continuous data; all rearrangements and units",
  (U,"detect_stripe"))
p("Bright and dark stripes are treated alike",
  "detect_stripe gives the same mask for data and for the inverted data.",
  "all lists and snr",
  "needs every pair of inputs",
  (U,"detect_stripe"))
p("Interpolation-based stripe removal rewrites detected columns only",
  "remove_stripe_based_interpolation replaces the detected columns and their direct neighbours, never the first and last two columns, by interpolation of the requested kind between the other columns of the same row; other columns are returned unchanged (norm=False) or divided by their non-zero factor (norm=True); it fails only if the detector fails or the image is too small.",
  "all sinograms, filters, snr, norm and kind",
  "all positions of stripes",
  (RM,"remove_stripe_based_interpolation"),(U,"interpolate_inside_stripe"))
p("Large-stripe normalisation never divides by zero",
  "remove_large_stripe(norm=True) never divides a column it keeps by zero.",
  "all sinograms and snr",
  "depends on the interplay of detector and normalisation for every input",
  (RM,"remove_large_stripe"))
p("Blob masks",
  "generate_blob_mask returns a mask of the image's shape in which a pixel is set exactly if a pixel of the same row at most one column away, not among the first and last two, is detected as standing out of its row; a row the detector rejects raises ValueError for the whole call.",
  "all flat images, sizes, snr",
  "all arrangements of blobs",
  (RM,"generate_blob_mask"))

p("Filtering wavelet components touches the requested ones only",
  "apply_filter_to_wavelet_component applies the method to component order (clipped to 0..2) of exactly the requested levels (all, one, or a list) and leaves the rest of the decomposition alone; a level that does not exist, a level of another type or an unknown method raises ValueError; errors of the method on a requested component, and only those, are passed on.",
  "all decompositions, level arguments, orders and methods",
  "unbounded number of levels and arbitrary filters",
  (U,"check_level"),(U,"apply_filter_to_wavelet_component"))
p("Any image can be decomposed at a feasible level",
  "apply_wavelet_decomposition uses the requested level if at least 16 pixels per side remain at that scale and otherwise the largest such level, and succeeds for every image.",
  "all image sizes and level arguments",
  "all sizes and levels",
  (U,"apply_wavelet_decomposition"))
p("Wavelet reconstruction does not alter its input",
  "apply_wavelet_reconstruction with ignore_level=k reconstructs from the components with those of the k-th finest level replaced by zeros, and the decomposition passed in is unchanged afterwards.",
  "all decompositions and levels",
  "side effect over all inputs",
  (U,"apply_wavelet_reconstruction"))
p("Polar transform and back",
  "The coordinates used by the polar transforms lie inside the image, the forward grid covers a full turn and all radii up to the edge, and transforming forward and then backward looks every pixel inside the circle up where it came from. Images that are not square and coordinates of a different shape raise ValueError.",
  "all image sizes and pixels",
  "trigonometric identities over all sizes",
  (U,"rectangular_from_polar"),(U,"polar_from_rectangular"),(U,"transform_slice_forward"),(U,"transform_slice_backward"))
p("Regularisation filter works line by line",
  "apply_regularization_filter gives the same result for any number of processes and any interleaving; each row (column for axis=0) is filtered on its own, linearly, and rows without variation are returned unchanged; axis=0 is the transpose of axis=1; one-column images raise IndexError.",
  "all images, alpha, core counts and schedules",
  "all schedules and images",
  (U,"apply_1d_regularizer"),(U,"apply_regularization_filter"))
p("2D window from a 1D window",
  "transform_1d_window_to_2d (order 1, the default) returns a square window whose central column is the 1D window; for a symmetric window of odd length every entry is the 1D window at its distance from the centre (cut at the half width).",
  "all windows of length at least 2 and all entries",
  "continuous values, all lengths",
  (U,"transform_1d_window_to_2d"))

p("Filtering-based stripe removal changes the low frequencies only",
  "remove_stripe_based_filtering returns a sinogram without stripes (all columns equal) unchanged with or without sorting, for every sigma and size; for any sinogram and filter the change made equals the change the filter makes to the low-pass component along the columns. remove_stripe_based_2d_filtering_sorting changes the sinogram exactly as the sorting method changes its high-pass part, and leaves constant sinograms (even sizes) unchanged.",
  "all sinograms, sigmas, sizes and filters",
  "all shapes and real values",
  (RM,"remove_stripe_based_filtering"),(RM,"remove_stripe_based_2d_filtering_sorting"))
p("Fitting-based stripe removal: valid windows, constants and scaling",
  "remove_stripe_based_fitting succeeds exactly if the number of chunks is positive and the odd window length of one chunk exceeds the polynomial order; a constant non-zero sinogram is returned unchanged, and scaling the sinogram by a positive factor scales the result.",
  "all sinograms, orders, sigmas and chunk numbers",
  "all shapes and real values",
  (RM,"remove_stripe_based_fitting"),(U,"generate_fitted_image"))
p("Removing all stripes from a sinogram without stripes",
  "remove_all_stripe returns a stripe-free sinogram unchanged, and in general is the dead-stripe step, the large-stripe step and the sorting step in that order.",
  "all sinograms and parameters",
  "all shapes and values",
  (RM,"remove_all_stripe"))
p("FFT-based stripe removal keeps a stripe-free sinogram",
  "remove_stripe_based_fft returns a sinogram whose columns are all equal unchanged, for every u, n, v.",
  "all sinogram sizes, profiles and filter parameters",
  "Fourier identities over all sizes",
  (RM,"remove_stripe_based_fft"))
p("Wavelet-FFT stripe removal keeps a stripe-free sinogram",
  "remove_stripe_based_wavelet_fft accepts every sinogram large enough for one decomposition level and returns one whose columns are all equal unchanged, for every level, size, window and sort option; the shape is kept.",
  "all sinogram sizes, profiles and parameters",
  "all sizes and decompositions",
  (RM,"remove_stripe_based_wavelet_fft"))
p("Ring removal works inside the circle and keeps clean images",
  "remove_ring_based_fft and remove_ring_based_wavelet_fft reject images that are not square, keep the shape, set every pixel outside the inscribed circle to zero, and leave a constant image unchanged inside it.",
  "all image sizes and values",
  "all sizes and pixels",
  (PO,"remove_ring_based_fft"),(PO,"remove_ring_based_wavelet_fft"))

p("Stacks of a Diamond-style scan: references and one projection per file",
  "get_reference_sample_stacks_dls returns, for each file used and in order, the cropped mean of the images whose key is the flat key and the sample image number proj_idx, each corrected by the given or recorded flat and dark fields; an index out of the range of the sample images is rejected.",
  "all lists of files, image keys, crops, indices and fields",
  "all key sequences and sizes",
  (L,"get_reference_sample_stacks_dls"))
p("The stack loaders agree",
  "get_image_stack succeeds exactly if every source used has the image asked for, and slice q of the result is the cropped, flat-dark-corrected image (or average) of source q; get_reference_sample_stacks returns what get_image_stack returns for the two lists, and get_tif_stack what it returns for one folder; without index get_tif_stack returns the first num_use images in order.",
  "all lists of sources, indices, crops, 2D flat and dark fields, and image heights other than 3",
  "all numbers of sources and image sizes",
  (L,"get_image_stack"),(L,"get_tif_stack"),(L,"get_reference_sample_stacks"))
p("The tif emulator indexes like an array",
  "Indexing HdfEmulatorFromTif with an integer, a slice or a triple gives what indexing the 3D array of all images of the folder gives, errors included; files with extension .tif or .TIF are found.",
  "all folders and indices",
  "all index forms, including negative and stepped slices",
  (CV,"__getitem__"))

p("The keys of an hdf file are found, each once",
  "get_hdf_information lists every object of the file exactly once, with the shape and type of each dataset at the same position, and every listed key opens the object it stands for; find_hdf_key returns exactly the entries whose key contains the pattern; load_hdf returns the object at the path, with or without leading slash, and raises ValueError if there is none.",
  "all hdf files (trees of groups, datasets and dangling links) and patterns",
  "all tree shapes and names",
  (L,"get_hdf_information"),(L,"find_hdf_key"),(L,"load_hdf"))
p("The tree view shows every object once and tells files apart",
  "get_hdf_tree prints every object exactly once, before its members, indented by its depth and with its shape, the last member of each group with its own branch sign; two files that print alike have the same objects.",
  "all hdf files with names that do not start with a blank",
  "all tree shapes",
  (L,"get_hdf_tree"),(L,"_make_tree_body"),(L,"_add_branches"))
p("Opening an hdf stream accepts every consistent set of keys",
  "open_hdf_stream succeeds exactly if the main key and the additional keys can stand beside each other (none is a beginning of another), and the file then holds exactly these datasets; a refused call leaves an existing file as it was; different file names give different files.",
  "all keys, options, file names and previous contents",
  "all key sets",
  (L,"open_hdf_stream"))

p("Filtered back-projection from end to end",
  "fbp_reconstruction raises ValueError exactly if the centre is outside the detector, the number of angles differs from the number of rows, or a single sinogram has one row or column; otherwise every slice of the result is pi/(nrow-1) times the sum over the angles of the ramp-filtered projection at the detector position of the pixel, zero outside the circle; a chunk gives the same as its slices one by one, whatever ncore; without logarithm it is linear; turning or negating all angles turns or mirrors the image; permuting the projections with their angles, or reversing the detector and adding half a turn, changes nothing.",
  "all sinograms and chunks, centres, angle lists, ratios, windows, filter names, pads, thread orders",
  "all sizes, angle lists and thread orders",
  (RE,"fbp_reconstruction"),(RE,"apply_ramp_filter"),(RE,"back_projection_gpu"))
p("Back-projection filtering from end to end",
  "bpf_reconstruction fails exactly for the arguments fbp_reconstruction refuses; otherwise every slice is the circularly ramp-filtered back-projection with edge extension times pi/(nrow-1), zero outside the circle; a chunk gives the same as its slices one by one; without logarithm it is linear, and a constant sinogram gives a constant image.",
  "all sinograms and chunks, centres, angle lists, ratios, windows, filter names, pads",
  "all sizes and windows",
  (RE,"bpf_reconstruction"),(RE,"apply_circular_ramp_filter"),(RE,"make_circular_ramp_window"))
p("Smoothing windows are low-pass windows centred on frequency zero",
  "make_smoothing_window gives for every filter name and width values between 0 and 1 that are symmetric and never increase away from the middle; applied after fftshift, frequency zero is kept and the frequencies k and -k are damped alike.",
  "all filter names and widths",
  "all widths",
  (RE,"make_smoothing_window"))

p("The direct Fourier method samples the Fourier plane in polar coordinates",
  "generate_mapping_coordinate maps every pixel of the plane, with polar coordinates (rho, phi) around its centre and 0 < phi <= pi, to the row phi*(height-1)/pi of the sinogram and to the column r_max + rho, rho limited to +-r_max; the coordinates never leave the sinogram; the central row and column of an odd plane fall on samples of the last and the middle row.",
  "all sizes of plane and sinogram, all pixels",
  "all sizes and pixels; trigonometric case distinctions",
  (RE,"generate_mapping_coordinate"))
p("The direct Fourier method brings any equidistant angles to the range from 0 to 180 degrees",
  "For projections of one object at equidistant angles over 180 or 360 degrees, in ascending or descending order and from any start angle, the sinogram that dfi_reconstruction reconstructs has in row i the projection at the angle i*step.",
  "all objects, start angles that are multiples of the step, numbers of rows, directions",
  "all objects, start angles and sizes",
  (RE,"__dfi_handle_angles"))
p("Direct Fourier reconstruction from end to end",
  "dfi_reconstruction raises ValueError exactly if the centre is outside the detector, the number of angles differs from the number of rows or the pad is negative; a chunk gives the same images as its slices one by one; outside the circle the image is zero; without logarithm it is linear; the sums over the columns (rows) of the image are the projection at 180 (90) degrees mirrored about the centre, and its total is the total of the last projection, for every smoothing window.",
  "all sinograms and chunks of at least two rows and columns, centres, angle lists, ratios, filters, pads, interpolations exact at the samples",
  "all sizes and data",
  (RE,"dfi_reconstruction"),(RE,"__dfi_single_slice"),(RE,"__dfi_handle_sinogram"))

p("Centre search by a slice metric returns the best candidate",
  "find_center_based_slice_metric returns the first centre with the smallest metric (largest with invert_metric) among the candidates step apart within the radius around the coarse centre, which is the first best among the candidates one zoomed pixel apart from start to stop; it returns a centre for every interval of valid centres; it exceeds the interval by less than the radius plus a step and a zoomed pixel; for entropy and sharpness it does not change when the slices are multiplied by a positive factor and offset by a constant; the sharpness is zero exactly for constant slices, the entropy depends on the values of the slice only.",
  "all sinograms, intervals, steps, radii, zooms, metrics, reconstruction methods",
  "all data, intervals and reconstruction methods",
  (RE,"find_center_based_slice_metric"),(RE,"_find_center_based_slice_metric"),(RE,"__get_slice_metric"))
p("Visual centre searches write one file per candidate",
  "find_center_visual_slices and find_center_visual_sinograms try the centres start, start + step, ... up to stop that lie on the detector and no others, write each to a file of its own whose name tells the centre to 0.005 pixel, and for slices write all of them unless a reconstruction raises; every valid centre can be requested.",
  "all widths, starts, stops, steps, zooms",
  "all argument values and sizes",
  (RE,"find_center_visual_slices"),(U,"find_center_visual_sinograms"))
p("Visual centre searches show the labelled centre",
  "The slice labelled c is reconstructed about position c of the original sinogram, also with zoom; the sinogram labelled c is the input above its mirror image about position c.",
  "all sinograms, candidate centres, zooms, rows and columns",
  "all data, centres and zooms",
  (RE,"find_center_visual_slices"),(U,"find_center_visual_sinograms"))

p("GPU, hybrid and CPU local-shift searches agree",
  "find_local_shifts gives the same shifts with gpu=True, gpu='hybrid' and on the CPU, for every chunk size, thread-block shape and normalisation flag: identical in one-direction mode (method diff) and in hybrid mode (every method); in two-direction GPU mode within half a pixel, and identical unless the best match lies at the edge of the searched area, where the GPU returns whole pixels.",
  "all stacks whose windows vary, window sizes, margins >= 1, chunk sizes, blocks, flags, pixels",
  "all images, chunk sizes and launch shapes",
  (CR,"find_local_shifts"),(CR,"_get_2d_shift_full_image_3d_input_gpu"),(CR,"_get_2d_shift_full_image_3d_input_cpu_gpu"),(CR,"__locate_2d_peak_kernel"),(CR,"__locate_1d_peak_kernel"))

p("FFT phase unwrapping depends on the phase modulo whole turns",
  "unwrap_phase_based_fft, and unwrap_phase_iterative_fft without a weight map, return the same image for two phase images that differ by whole turns per pixel and one constant; the result has the size of the image and total zero; a constant phase gives zero; mirroring, turning upside down or transposing the phase (and the weight map) does the same to the result, and negating it negates the non-iterative result; a window is accepted exactly if it has twice the size of the image.",
  "all images, whole-turn maps, offsets, windows, numbers of iterations, weight maps",
  "all phase images and wrap patterns",
  (PH,"unwrap_phase_based_fft"),(PH,"unwrap_phase_iterative_fft"),(PH,"_double_image"),(PH,"_make_window"))
p("Frankot-Chellappa surface from gradients",
  "reconstruct_surface_from_gradient_FC_method returns a surface of the shape of the gradients exactly if these have one shape and the window is not given or is three arrays of twice that shape, with no negative height if correct_negative is on (which raises the whole surface by one constant); without it the surface is linear in the gradients, follows mirror images, treats rows and columns alike, and integrates gradients that vary along an axis exactly up to a constant.",
  "all gradients, sizes, windows, flags, coefficients of the cosine series",
  "all gradients and sizes; only square images are tested",
  (PH,"reconstruct_surface_from_gradient_FC_method"),(PH,"_make_window_FC_method"))

p("A vertical slice is a section through the horizontal slices",
  "For an image of odd width, vertical_reconstruction with ramp_filter='before' and no mask returns at 0 degrees the rows, at 90 degrees the columns (read upwards) with that slice index of the images fbp_reconstruction gives for the sinograms of the detector rows with the same centre, angles, filter, padding and logarithm; with ramp_filter=None the same for plain back-projection with edge padding.",
  "all projection stacks, reference fields, crops, centres, angle lists, filters, padding modes, slice indices, chunk sizes, CPU and GPU schedules",
  "two code paths over all data, geometries and schedules; a half-pixel offset is invisible in smooth test data",
  (VR,"vertical_reconstruction"),(RE,"fbp_reconstruction"),(VR,"_get_points_single_line"))
p("The three vertical reconstruction functions agree",
  "vertical_reconstruction, vertical_reconstruction_multiple and vertical_reconstruction_different_angles accept exactly the documented arguments and otherwise raise; slice number s of the latter two is what the first gives for index start + s * step, respectively for the s-th index and angle, whatever devices, schedules and chunk sizes the calls use; two slices agree where they cross, unless they are filtered after the back-projection (which mixes the points of a slice) or masked; masking keeps the central columns unchanged and sets the others to zero.",
  "all stacks, options, indices, angles, chunk sizes, numbers of threads, schedules, GPU launches",
  "all combinations of options and all thread schedules",
  (VR,"vertical_reconstruction"),(VR,"vertical_reconstruction_multiple"),(VR,"vertical_reconstruction_different_angles"))

p("The full helical sinogram contains the projections that see the slice",
  "generate_full_sinogram_helical_scan succeeds for every slice whose projections are stored; each row is the stored projection interpolated at the detector row that sees the height of the slice, the angles are those of these projections, no projection before the first row sees the slice and at most two after the last one do; otherwise it raises ValueError.",
  "all scan geometries (pixel size, pitch, range, number of projections, crop), slice indices, data, reference fields",
  "continuous geometry parameters",
  (PC,"generate_full_sinogram_helical_scan"))

p("Speckle image stacks are aligned",
  "find_shift_between_image_stacks returns the shift of every pair of images and refuses stacks of different shapes; align_image_stacks with these shifts makes reference and sample images show the same speckles at every pixel whose sources lie in the images; with the shifts of find_shift_between_sample_images (whose border crop removes every filled-in pixel) the object is at the same place in all aligned sample images.",
  "all stacks, image sizes, speckle patterns, objects, whole-pixel displacements of speckles and object, numbers of cores and schedules",
  "displacements of every pair, any number of images",
  (PH,"find_shift_between_image_stacks"),(PH,"find_shift_between_sample_images"),(PH,"align_image_stacks"))

p("Local shifts of two single images",
  "find_local_shifts of two 2D images refuses images of different shapes or smaller than win_size + 2*margin; otherwise the result does not depend on ncore or scheduling, contains at every pixel at least margin + win_size//2 from the border the shift found for the window of that pixel alone - the true one if the window (of the normalised images with norm=True) is translated by whole pixels - and zeros elsewhere.",
  "all image pairs, window sizes, margins, numbers of cores, schedules",
  "schedules and image contents",
  (CR,"_get_2d_shift_full_image_2d_input"),(CR,"find_local_shifts"))
p("Speckle tracking uses only shifts that were found",
  "retrieve_phase_based_speckle_tracking returns what its flags ask for; the shift images are the found shifts, with the border that was not searched replaced by a mirror image of the searched part, so that every shift used for the phase image was found at some pixel.",
  "all images, window sizes, margins, search and surface methods, flags",
  "any window size and image size",
  (PH,"retrieve_phase_based_speckle_tracking"))

p("Quality map of a phase image",
  "get_quality_map refuses only empty images and negative sizes; the map has the shape of the image, values between 0 and 4*pi/win_size, does not change when whole turns are added to single pixels or a constant to all, is transposed with the image, and away from the border is zero exactly where the wrapped phase steps are the same in the whole window (in particular for wrapped planes). Every pixel influences it.",
  "all phase images and window sizes",
  "values of any image and any window",
  (PH,"get_quality_map"))
p("Weight mask of a quality map",
  "get_weight_mask is refused exactly for images with at most two rows and columns; it is 0/1, marks with a pixel all pixels that are at least as bad, marks fewer pixels for a greater snr, none for a constant map, does not depend on scale and offset of the map nor on the positions of the values.",
  "all maps and values of snr",
  "order properties over all images",
  (PH,"get_weight_mask"))
p("Background normalisation and automatic threshold",
  "normalize_background leaves constant images, and images with features covering less than half of every window of a uniform background, unchanged, scales with the image and keeps positive images positive; so does normalize_background_based_fft for constants and scale. calculate_threshold is refused exactly for images whose longer side is below 6 pixels, follows scale and offset of the grey values, and does not depend on the positions of the pixels, so that binarize_image finds the same dots after a change of exposure.",
  "all images, filter sizes, exposures",
  "any image and any filter size",
  (CB,"normalize_background"),(CB,"normalize_background_based_fft"),(CB,"calculate_threshold"),(CB,"binarize_image"))

p("Forward projection by the Fourier slice theorem",
  "make_sinogram refuses only images that are not square, an empty list of angles and negative padding; the row for angle 0 holds the column sums and that for pi/2 the row sums, last row first (of the image for zero padding, of the image continued by its border for edge padding); rows half a turn apart are mirror images of each other about the middle of the row; unpadded rows have the sum of the image at every angle; the sinogram is linear in the image.",
  "all images, angles, padding rates and modes",
  "sums over images of any size and any interpolation",
  (SI,"make_sinogram"))

p("Options of the flat-field correction",
  "flat_field_correction applies the options in the order given (a call with options o1, o2 equals a call with o1 followed by one with o2 on the result); options that are None have no effect; a dictionary calls the named function, looked up in removal, then filtering, then phase, with its further values as arguments; unknown names and options that are not dictionaries raise ValueError. A stack is corrected as its sinograms are, one by one, with the rows of the flat field.",
  "all stacks, flat and dark fields, lists of options and processing functions",
  "any chain of options and any processing function",
  (CO,"flat_field_correction"))

p("Converting a tif folder to hdf and back",
  "convert_tif_to_hdf writes one slice per file whose name contains the pattern and then .tif, in alphabetical order of the names and independent of the order of the directory; slice k is the requested window of the k-th image; it is refused if no file matches, if the crop leaves nothing, or if a later image is too small. Extracting all slices along an axis with extract_tif_from_hdf into a folder without tif files and converting the folder gives the slices back in order; the crop removes the given number of pixels on each side.",
  "all folders, patterns, crops, stacks and axes",
  "number of files and their names are unbounded",
  (CV,"convert_tif_to_hdf"),(CV,"extract_tif_from_hdf"),(L,"find_file"))
p("Grey values of image files",
  "load_image returns the mean of the channels of a colour image. save_image in formats other than tif writes an 8-bit image that keeps the order of the grey values, is 0 at the darkest and 255 exactly at the brightest pixels, determines every value to within one of 255 equal steps, and does not depend on unit and offset; only uniform and empty images cannot be scaled.",
  "all images",
  "values of any image",
  (L,"load_image"),(L,"save_image"))

p("gridrec reconstruction: padding and slices",
  "gridrec_reconstruction accepts exactly calls with as many angles as rows, a center inside the sinogram and a pad that does not make the padded width smaller than the sinogram (any pad >= 0 does not). The sinogram given to the external routine is the (logarithm of the) caller's, continued by its edge values to the smallest power of two that leaves pad columns on both sides, as evenly as possible, with the centre moved along; the image has the size of the sinogram's width and is zero outside the circle; a chunk is reconstructed slice by slice.",
  "all sinograms, chunks, centers, pads, ratios and external routines",
  "widths and pads are unbounded",
  (RE,"gridrec_reconstruction"))
p("astra reconstruction: methods, centring and slices",
  "astra_reconstruction accepts exactly the listed methods; without a GPU a CUDA method runs as its CPU counterpart (EM is refused). Every sinogram is continued by pad edge values on both sides and shifted so that the column of the rotation axis comes into the middle of the array; the image has the size of the sinogram's width and is zero outside the circle; a chunk is reconstructed slice by slice for any number of threads and any schedule.",
  "all sinograms, chunks, centers, methods, schedules",
  "schedules and sizes are unbounded",
  (RE,"astra_reconstruction"),(RE,"__astra_recon_single"))

p("Inverse double-wedge mask",
  "make_inverse_double_wedge_mask returns an array of the requested size with values 0 and 1: 1 exactly at the pixels more than hor_drop rows and more than ver_drop columns from the middle pixel and not farther sideways than the slope of the wedge allows. The middle row and column are 0, the mask is the same left and right of the middle, and it grows when the radius shrinks.",
  "all heights, widths, radii and drops",
  "sizes are unbounded",
  (CA,"make_inverse_double_wedge_mask"))
p("The centre of rotation does not depend on unit, offset and direction of scan",
  "Replacing the sinogram by a*sinogram + b multiplies the metric of every candidate centre by |a|; reversing the order of the projections leaves it unchanged; mirroring the detector moves it to the mirrored candidate. Hence coarse_search_cor, fine_search_cor and find_center_vo return the same centre for a*sinogram + b (a not 0) and for reversed projections, and the mirrored centre for a mirrored detector, whatever the number of workers and the order in which they finish; the centre returned by find_center_vo lies on the detector.",
  "all sinograms, factors, offsets, options, worker counts and schedules",
  "data and schedules are unbounded",
  (CA,"calculate_center_metric"),(CA,"coarse_search_cor"),(CA,"fine_search_cor"),(CA,"downsample_cor"),(CA,"find_center_vo"))

p("detect_sample does not depend on unit, offset and orientation",
  "detect_sample gives the same answer for a*sinogram + b (a not 0); for a 180-degree sinogram also for the mirrored detector and for the opposite order of projections; for a 360-degree sinogram for any start angle and for the sinogram turned by 180 degrees. It answers exactly for the types '180' and '360' and sinograms of at least 4 columns and 2 (360: 4) projections.",
  "all sinograms, factors, offsets and start angles",
  "data are unbounded",
  (U,"detect_sample"))
p("Windows paths written as ordinary strings",
  "On Windows a path typed with single backslashes in an ordinary Python string, in which backslash-a, -b, -f, -n, -r, -t and -v have become control characters, is understood as typed (with forward slashes); paths without control characters only get forward slashes; a missing file is a ValueError.",
  "all paths",
  "paths are unbounded",
  (L,"__correct_path"),(L,"__get_path"))
p("Inputs of the post-processing functions: array, tif folder or hdf file",
  "A 3D array, a folder of tif files and a hdf dataset with the same data are reported with the same depth, height and width. Output paths without extension mean a tif folder, .hdf/.h5/.nxs a hdf file, others are refused; other inputs are refused with an error.",
  "all arrays, folders, files and paths",
  "file systems and names are unbounded",
  (PO,"__get_input_type"),(PO,"__get_output_type"),(PO,"__get_shape"))
p("load_image_multiple loads every image once, in order",
  "load_image_multiple returns the images of the given paths in the order of the list, for any number of workers and any order in which they finish; it fails exactly when a file cannot be read or the sizes differ.",
  "all lists, worker counts and schedules",
  "schedules are unbounded",
  (L,"load_image_multiple"))

p("find_local_shifts_umpa equals the per-pixel search",
  "On the CPU (also when gpu=True without a CUDA device) find_local_shifts_umpa returns at every pixel that is at least margin + win_size//2 from the border the shift that minimises the UMPA cost of that pixel on the whole images, never larger than the margin, independent of chunk_size, number of cores and block; the outer border is zero; with dark_signal transmission and dark signal are the fit at the map entry nearest to the shift and the border repeats the nearest interior pixel. Stacks of different shape or too small are refused.",
  "all stacks, windows, margins, chunk sizes, filters and methods",
  "images, chunk sizes and schedules are unbounded",
  (CR,"find_local_shifts_umpa"),(CR,"__get_2d_shift_multi_rows_3d_input_umpa_cpu"),(CR,"__calc_shift_umpa"))
p("find_local_shifts_umpa on the GPU agrees with the CPU and recovers a known shift",
  "The GPU search agrees with the CPU search with method diff to half a pixel, and exactly (shift, transmission, dark signal) where the smallest cost is not at the edge of the searched area, for any thread block and chunk sizes. On both, a sample that is an attenuated, blurred copy of the reference displaced by whole pixels gives a shift less than a pixel from the true one; if it is less than half a pixel away, transmission and dark signal are exact.",
  "all stacks, windows, margins, blocks, chunk sizes",
  "images and launch configurations are unbounded",
  (CR,"__calc_shift_umpa_gpu_kernel"),(CR,"__get_2d_shift_multi_rows_3d_input_umpa_gpu"),(CR,"__accu_correlate"),(CR,"find_local_shifts_umpa"))
p("UMPA results do not depend on the exposure",
  "Multiplying all sample intensities by c > 0 and all reference intensities by s > 0 leaves the shifts and the dark signal of find_local_shifts_umpa unchanged and multiplies the transmission by c/s, on the GPU and on the CPU with either method.",
  "all stacks and factors",
  "images are unbounded",
  (CR,"find_local_shifts_umpa"))

p("Global shift on the GPU agrees with the CPU",
  "find_global_shift_based_local_shifts(gpu=True) refuses the same inputs as the CPU search; it uses the same points, its lists of local shifts differ entry by entry from those of the CPU (method 'diff') by at most half a pixel, so does the global value for every global_value, and they are equal if no point is best matched at the edge of the searched area. Images translated by the same integer shift in all windows give that shift to less than a pixel. Without an Nvidia GPU the CPU search is run.",
  "all images, window sizes, margins, point lists, block sizes, aggregations, CPU schedules and numbers of cores",
  "The statement ranges over all images, point lists, launch configurations and pool schedules; the GPU branch is not run by the tests at all.",
  (CR,"find_global_shift_based_local_shifts"),(CR,"_find_global_shift_based_local_shifts_gpu"),(CR,"_get_local_shifts_gpu_kernel"))

p("Line target",
  "make_line_target(size) fails with IndexError exactly below 26 pixels (up to 60000); otherwise it returns a size x size image, symmetric under transposition, that is 1 in a disc around the centre and 0 elsewhere and on the lines: for every width w that fits, three lines of exactly w columns at distances 2w, narrow to wide on the right and wide to narrow on the left, size//16 high, and the same transposed. All lines are in the image and in the disc.",
  "all sizes from 0 to 60000",
  "The claim ranges over all sizes; the unit tests look at one.",
  (SI,"make_line_target"))
p("Face phantom",
  "make_face_phantom(size) is symmetric about its central column, 0 outside the head, 1 on the ring of the head, and has values between 0 and 1.",
  "all sizes and pixels",
  "The claim ranges over all sizes and pixels.",
  (SI,"make_face_phantom"))
p("Noise of a given ratio",
  "add_noise adds normal noise with the mean ratio times the mean of the non-zero pixels and half of it as the deviation: it fails exactly if that mean is negative, keeps the shape, leaves the image unchanged for ratio 0 and scales with the image. A non-negative image never fails for a ratio that is not negative. The exception is an image of zeros, for which the result is not-a-number everywhere.",
  "all images, ratios and values of the random numbers",
  "The claim ranges over all images and all outcomes of the random generator.",
  (SI,"add_noise"))

p("Interrupted dataset writers can be run again",
  "When rescale_dataset or downsample_dataset, from a tif folder to another folder, is stopped anywhere (before, between or in the middle of writing files), no other folder and no other file of the output folder has changed; calling it again with overwrite=True leaves the disk exactly as the uninterrupted call would have, or fails as that would have; with overwrite=False it is refused as soon as the output folder exists. In any history of calls with overwrite=False, each run to its end or stopped anywhere, a folder that exists is never changed.",
  "all disks, arguments, crash points, contents of a half-written file and histories of calls",
  "The claim ranges over all crash points and histories; tests run calls to their end.",
  (PO,"rescale_dataset"),(PO,"downsample_dataset"))
p("The output folder is the data set",
  "After rescale_dataset or downsample_dataset into a tif folder (at most 100000 slices), reading the output folder back in order of names gives exactly the slices of the result, each once and in order.",
  "all disks, arguments and former contents of the output folder",
  "The claim ranges over all numbers of slices and all former contents of the folder.",
  (PO,"rescale_dataset"),(PO,"downsample_dataset"))
p("Processing a tif folder in place",
  "rescale_dataset and downsample_dataset with overwrite=True and the output folder equal to the input folder give the images that they would write to another folder.",
  "all folders and arguments",
  "The claim ranges over all file names and numbers of slices; the order of reads and writes matters.",
  (PO,"rescale_dataset"),(PO,"downsample_dataset"))

p("Interrupted reslicing can be run again",
  "When reslice_dataset from a tif folder to another folder or to an hdf file is stopped anywhere, including in the middle of writing a file or of the clean-up, no file has changed that is not part of the output, of the temporary folder or (hdf output) of the folder named like the output; the same call with overwrite=True then leaves the disk exactly as the uninterrupted call would have, or raises what that would have raised; with overwrite=False it is refused if the output exists and else does the same.",
  "all disks, arguments, crash points and contents of half-written files",
  "The claim ranges over all crash points; tests run calls to their end.",
  (PO,"reslice_dataset"))
p("Reslicing writes the slices and cleans up",
  "After reslice_dataset from a tif folder every slice file (or slice of the hdf file) holds the resliced data, also when the output is the input folder; nothing temporary is left, and no other file has changed, whether the call succeeds or raises.",
  "all disks, arguments and chunk sizes",
  "The claim ranges over all sizes, chunk sizes and former contents of the disk; the order of reads and writes matters when the output is the input.",
  (PO,"reslice_dataset"))

p("An interrupted script can be run again from its start",
  "A script of rescale_dataset, downsample_dataset and reslice_dataset calls on tif folders and of convert_tif_to_hdf and extract_tif_from_hdf calls, in which no call writes to its own input folder or to that of an earlier call, may be stopped anywhere, any number of times. Run again from the start with overwrite=True it leaves the disk as one uninterrupted run would have, or raises what that would have raised; meanwhile no file has changed except those the calls write.",
  "all disks, scripts, numbers of attempts, crash points and contents of half-written files",
  "The claim ranges over all histories of interrupted attempts; tests run calls to their end.",
  (PO,"rescale_dataset"),(PO,"downsample_dataset"),(PO,"reslice_dataset"))

p("The visual search on vertical slices writes one correct file per candidate centre",
  "find_center_visual_vertical_slices writes, for each candidate from start to stop, a file named after the candidate that holds the vertical slice vertical_reconstruction would give about it (after the logarithm if asked for), with the part outside the field of view common to all candidates set to zero if masking is on. If all candidates are on the detector no error is raised; chunk size, device and thread schedule do not matter.",
  "all projection stacks, slice positions, tilt angles, candidate ranges, ramp and masking options, chunk sizes, devices and schedules",
  "The files depend on the interplay of candidate range, mask and thread schedule; tests count the files of one call.",
  (VR,"find_center_visual_vertical_slices"))
p("The metric search on vertical slices returns the first best candidate whatever the schedule",
  "find_center_vertical_slice with float candidates on the detector returns the first candidate whose slice, reconstructed from the smoothed projections after the logarithm and masked, has the smallest metric (the largest with invert_metric); the result is the same for every chunk size, device, number of threads and schedule. An unknown metric raises ValueError.",
  "all projection stacks, candidate ranges, metrics including functions given by the user, options, chunk sizes, devices and schedules",
  "No test can compare all candidates of all inputs under all schedules.",
  (VR,"find_center_vertical_slice"))
p("The autocorrelation metric of a slice is its mean row energy",
  "The autocorrelation metric is the mean over rows of the row's sum of squares: never negative, zero exactly for the zero image, scaled by c^2 when the image is multiplied by c, unchanged when rows are exchanged or pixels are moved within their row. An image without rows or columns raises ValueError.",
  "all real images of all sizes",
  "An identity over all images; the code goes through two Fourier transforms and a maximum.",
  (VR,"__calculate_autocorrelation_coefficient"))

p("Converting a tif folder to hdf touches nothing but its file and can be repeated after a stop",
  "convert_tif_to_hdf, run step by step on a disk, leaves in the output file the cropped images in file order (or raises what the conversion of the arrays raises). Stopped anywhere or complete, it changes no other file. If the output file is not itself matched by the input pattern, a stopped conversion started again ends with the disk of an uninterrupted one, and raises what that would raise.",
  "all disks, patterns, crops, numbers and shapes of images, and all points at which the call is stopped, also in the middle of writing",
  "Tests do not kill the process; the crash points and disk contents are unbounded.",
  (CV,"convert_tif_to_hdf"))
p("Extracting tifs from hdf touches nothing but its images and can be repeated after a stop",
  "extract_tif_from_hdf, run step by step on a disk, leaves in the output folder one image per index with the content of that slice (or raises what the extraction of the array raises). Stopped anywhere or complete, it changes nothing but files named prefix_number.tif in that folder. Started again after a stop it ends with the disk of an uninterrupted run. Extracting all slices (at most 100000) into a folder without tif files and converting the folder gives a file with the slices in order.",
  "all disks, axes, indices, crops, prefixes, and all points at which the call is stopped, also in the middle of writing",
  "Tests do not kill the process; the crash points and disk contents are unbounded.",
  (CV,"extract_tif_from_hdf"))

p("The overlap search finds an exact overlap",
  "If the last v columns of the first image are the first v of the second (side 1; mirrored for side 0) - after the gaussian filter, with denoise=True, which mixes in what lies outside the overlap - find_overlap returns an overlap within half a pixel of v and find_center_360 a centre within a quarter of a pixel, for every choice of denoise, norm and use_overlap, provided no other window of the first image is a positive affine copy of the one looked for and no window is constant. The result does not depend on ncore or the thread schedule. Without denoise, changing gain and offset of either image (gain only with norm) changes nothing; side=None returns the result of the side with the larger curvature; find_overlap_multiple is find_overlap of consecutive images.",
  "all image sizes, contents, overlaps, window widths, sides, options, numbers of threads and schedules",
  "The images, overlaps and schedules are unbounded; tests use one noise-free pair.",
  (CA,"find_overlap"),(CA,"search_overlap"),(CA,"calculate_curvature"),(CA,"correlation_metric"),(CA,"find_overlap_multiple"),(CA,"find_center_360"))
p("The rows used by find_center_projection are those asked for",
  "find_center_projection uses rows inside the image, chunk_height of them (at least one), starting at start_row when the chunk fits; no other row affects the result.",
  "all image heights, chunk heights (absent, integer, ratio) and start rows",
  "Tests use the default chunk.",
  (CA,"find_center_projection"))

p("180-degree sinograms are completed to 360 degrees and filtered like them",
  "convert_sinogram_180_to_360 returns 2n-1 rows; the first n are the input; row n-1+i is row i mirrored about the axis (outer column repeated beyond the detector) when the axis is a whole number of pixels from the middle of the detector, so that an ideal scan of 180 degrees becomes one of 360; constants stay constant for every axis. double_wedge_filter keeps the shape for both types, is linear, returns its input for a mask of ones and constant sinograms without a mask; for 180 degrees it is the 360-degree filter of the converted sinogram cut to n rows; it raises ValueError exactly for another type, a 180-degree sinogram with center 0, or a mask whose shape is not that of the padded 360-degree sinogram.",
  "all sinograms, axes, masks, pads, ratios and iteration numbers",
  "The sizes, axes and masks are unbounded; tests use one sinogram.",
  (PC,"convert_sinogram_180_to_360"),(FI,"double_wedge_filter"))

p("join_image_multiple lays out any number of images in order",
  "join_image_multiple of n images with whole, non-negative joint widths (side 1) returns the images side by side: its width is the sum of the widths and gaps; every column away from the seams is the image's own column times that image's factor; each seam is the straight line between the columns next to it; with norm the factors make the three-column means on both sides of every seam equal, without norm they are 1. total_width only repeats the last column. For any non-negative joint widths and sides it succeeds exactly for at least two images of one height with a joint per neighbouring pair, and join_image widens by the rounded joint width.",
  "all numbers, sizes (at least six columns) and contents of images, gaps, and both values of norm",
  "Tests join two images.",
  (PC,"join_image_multiple"),(PC,"join_image"))

p("Phase correlation finds a whole-pixel shift exactly",
  "If the first image is the second one moved by whole pixels (circularly, or inside a uniform border of four pixels with gradient=True), with any non-zero change of contrast (and any offset with gradient=True), find_shift_based_phase_correlation returns exactly the displacement in (-n/2, n/2] along each axis, provided no other roll of the image is a multiple of it (e.g. its strongest pixel is unique). For any two images of one shape it returns a shift of at most half the size plus half a pixel; contrast (and offsets, with gradient=True) never matter; exchanging the images reverses the shift, up to whole turns, if the correlation has a single highest point. Other shapes raise ValueError.",
  "all image sizes and contents, displacements, contrast factors and offsets, both values of gradient",
  "Tests try one displacement of one image; that the peak is unique and its neighbours are equal is an argument about all spectra.",
  (CA,"find_shift_based_phase_correlation"),(CA,"complex_gradient"))
p("The centre from two mirrored projections is exact in the middle half of the detector",
  "If the projection at 0 degrees is the mirror image of the one at 180 degrees about the column c (whole or half pixel), with any vertical displacement and change of contrast, find_center_based_phase_correlation returns c if c is in the middle half of the detector (-w < 2(2c - w + 1) <= w), and otherwise c plus a multiple of half the width.",
  "all image sizes and contents (no roll of which is a multiple), centres, vertical displacements, contrast factors and offsets, both values of gradient",
  "No set of test images covers all centres and contents.",
  (CA,"find_center_based_phase_correlation"))

p("Local shifts of two single images do not depend on the device or the chunk size",
  "find_local_shifts on two 2D images returns the same shifts for every chunk_size and thread block on the GPU; they agree with the CPU result (method 'diff', any number of cores and schedule) to half a pixel in each direction, exactly where the largest correlation is not at the edge of the searched area; at the edge the GPU returns the whole-pixel shift; windows translated by whole pixels are found to less than a pixel. Images of different shapes or too small are refused; gpu=True without a GPU runs the CPU search and 'hybrid' is the GPU search.",
  "all images, window sizes, margins, chunk sizes, blocks, core numbers, schedules and both values of norm",
  "The images, sizes and schedules are unbounded and the tests have no GPU.",
  (CR,"find_local_shifts"),(CR,"_get_2d_shift_full_image_2d_input_gpu"),(CR,"_get_2d_shift_multi_rows_2d_input_gpu"))

p("Centre searches by reconstruction use the method asked for","find_center_based_slice_metric and find_center_visual_slices reconstruct every candidate by the public function the argument method names (dfi, gridrec, fbp, bpf, astra), about the candidate, with the caller's angles, ratio, filter and logarithm and the defaults of that function for the rest, and refuse other names; every method accepts exactly the centres on the detector and gives a square image as wide as the sinogram, zero outside the circle; without zoom the visual search therefore writes an image for every candidate; without logarithm the centre found does not change when the sinogram is multiplied by a positive factor, whatever the method.","all sinograms with at least two rows and columns, centres, angles, ratios, filters, methods, GPU or not","Compares five functions for every centre and option; tests run one or two methods on one phantom.",(RE,"_reconstruct_slice"),(RE,"find_center_based_slice_metric"),(RE,"find_center_visual_slices"))

p("Overlaps and joint widths that are not whole numbers keep the images aligned","stitch_image called with an overlap, and join_image with a joint_width, that is not a whole number compensates the fraction by sub-pixel shifts: if the two images show one scene at exactly that distance, the part of the result coming from the left image and the part coming from the right image show the scene with one common offset.","all scenes, image sizes, both sides, all fractional overlaps and joint widths, every shift routine exact for the scene","A scene on a real axis and every fraction; tests use whole numbers or look at the shape only.",(PC,"stitch_image"),(PC,"join_image"))

p("Errors of the per-slice method reach the caller",
  "If the method given to parallel_process_slices raises for some slice, the call raises; if the call raises, the exception is one the method raised for some slice, or a ValueError because two results have different shapes; otherwise the array of all results is returned. No partial array is ever returned, whatever the axis, the number of workers and the order of events.",
  "every 3D array, every per-slice function (failing for any set of slices), axis, worker count and interleaving", "which task fails first depends on the schedule", (U,"parallel_process_slices"))

p("norm_global of the local-shift search does not change the shifts",
  "Switching norm_global on in find_local_shifts (it rescales each whole stack before the search) does not change the shifts: correlation coefficients do not see a positive affine change of the grey values.",
  "all stacks that are not flat, window sizes, margins, chunk sizes, thread blocks, sub-pixel methods and both directions, on the CPU and the GPU", "tests compare with a tolerance on a few random stacks", (CR,"find_local_shifts"), (CR,"normalize_image"))

p("Unwarping follows the radial distortion model",
  "unwarp_projection(proj, xcenter, ycenter, list_fact) has the shape of proj and its pixel (i, j) is the bilinear interpolation of proj at the point (ycenter + F (i - ycenter), xcenter + F (j - xcenter)) with F = sum_k list_fact[k] r^k at the distance r of the pixel from the centre, moved to the border if it is outside; list_fact=[1] changes nothing. unwarp_sinogram(data, index, ..., (start, stop, step)) returns row index of the unwarped projections start, start+step, ... in that order; a zero step raises ValueError and projections that do not exist IndexError.",
  "all images, centres, coefficient lists, rows, ranges (also negative steps and indices)", "a test checks one model on one image", (CO,"unwarp_projection"), (CO,"unwarp_sinogram"))

p("A fitted image follows polynomials",
  "generate_fitted_image(mat, order, axis, num_chunk) has the shape of mat; each value is the value at the centre of the least-squares polynomial of degree at most order through the largest odd number of pixels not above length/num_chunk around it along the axis (pixels mirrored at the ends); in particular lines that are polynomials of degree at most order are returned unchanged.",
  "all images, orders below the window length, numbers of chunks and both axes", "a test fits one random image", (U,"generate_fitted_image"))

p("The device of find_local_shifts on stacks does not matter",
  "find_local_shifts on two stacks gives the same shifts on the CPU, with gpu=True and with gpu='hybrid', for both values of dim, every chunk size, thread block and normalisation: exactly in one direction with method diff (errors included), exactly between CPU and hybrid in two directions, to half a pixel between CPU and GPU in two directions; gpu=True without a GPU runs the CPU search.",
  "all stacks of the same shape that vary, window sizes, margins >= 1, chunk sizes without empty chunks, blocks, sub-pixel methods, both normalisation options",
  "the agreement must hold for every input and every combination of options, and the GPU branches do not run on machines without one",
  (CR,"find_local_shifts"),(CR,"_get_1d_shift_full_image_3d_input_gpu"),(CR,"_get_2d_shift_full_image_3d_input_cpu_gpu"))

p("Wavelet decomposition and reconstruction are inverse",
  "For every image with both sides at least 16, every level argument and every wavelet with perfect reconstruction, apply_wavelet_reconstruction applied to the result of apply_wavelet_decomposition gives the image back, in the shape of the image; the number of levels and the shapes of the components are determined by the image and the filter length; a constant image has zero details at every level; ignoring a level removes exactly what its details contribute.",
  "all images, levels and wavelets with perfect reconstruction",
  "the identity must hold for every size (parity, short signals where the extension wraps more than once), level and filter",
  (U,"apply_wavelet_decomposition"),(U,"apply_wavelet_reconstruction"))

p("Stripe and zinger removal do not depend on the unit of the data",
  "For every sinogram, every choice of parameters and every k > 0, removing stripes from k times the sinogram gives k times the result of removing stripes from the sinogram, and raises in exactly the same cases: sorting, filtering, 2D filtering and sorting, normalization, large stripes, dead stripes, all stripes, FFT, wavelet-FFT, interpolation; likewise remove_zinger.",
  "all sinograms, parameters and positive factors",
  "thresholds inside the methods could depend on the absolute level for some data only; a test fixes one scale",
  (RM,"remove_stripe_based_sorting"),(RM,"remove_stripe_based_filtering"),(RM,"remove_stripe_based_2d_filtering_sorting"),(RM,"remove_stripe_based_normalization"),(RM,"remove_large_stripe"),(RM,"remove_dead_stripe"),(RM,"remove_all_stripe"),(RM,"remove_stripe_based_fft"),(RM,"remove_stripe_based_wavelet_fft"),(RM,"remove_stripe_based_interpolation"),(RM,"remove_zinger"))

p("Stripe removal with sorting does not depend on the order of the projections",
  "For every sinogram and every permutation of its projections, sorting-based, large-stripe and interpolation-based removal, normalization in one chunk, and normalization, fitting, FFT and wavelet-FFT removal with sort=True give the permuted result, and raise in exactly the same cases.",
  "all sinograms, permutations of the rows, parameters and sorting algorithms",
  "there are n! orders; the sorting algorithm of numpy is not stable, so equal values decide",
  (RM,"remove_stripe_based_sorting"),(RM,"remove_large_stripe"),(RM,"remove_stripe_based_interpolation"),(RM,"remove_stripe_based_normalization"),(RM,"remove_stripe_based_fitting"),(RM,"remove_stripe_based_fft"),(RM,"remove_stripe_based_wavelet_fft"))

p("Stripe and zinger removal treat left and right alike",
  "For every sinogram, with every row reversed the stripe and zinger removal methods (sorting, filtering, normalization, FFT-based, large, dead and all stripes, interpolation, zingers) give the result with every row reversed, and raise in exactly the same cases.",
  "all sinograms, parameters and sorting algorithms",
  "an off-by-one in a window, a mask or an interpolation shows at particular positions of a stripe only",
  (RM,"remove_stripe_based_sorting"),(RM,"remove_stripe_based_normalization"),(RM,"remove_large_stripe"),(RM,"remove_dead_stripe"),(RM,"remove_all_stripe"),(RM,"remove_stripe_based_interpolation"),(RM,"remove_zinger"),(RM,"remove_stripe_based_filtering"),(RM,"remove_stripe_based_fft"))

p("Sorting-based stripe removal commutes with the logarithm",
  "For every sinogram and every column without repeated values, remove_stripe_based_sorting with a 1D median window (dim=1) commutes with every strictly increasing change of grey values (any window size) and with every strictly decreasing one (odd window sizes); in particular with the -log transform of positive transmissions, so it can be applied before or after it.",
  "all sinograms, window sizes, sorting algorithms and strictly monotone changes of grey values",
  "tests compare one sinogram before and after one transform; monotone maps form an infinite family",
  (RM,"remove_stripe_based_sorting"),(U,"sort_forward"),(U,"sort_backward"))

p("Offsets and beam fluctuations pass through stripe removal",
  "For every sinogram, adding one constant to all values adds that constant to the result of every stripe removal method based on sorting, filtering (with or without sorting, 1D or 2D), normalization, regularization (apply_log=False) and wavelet-FFT, or both calls raise the same exception; without sorting the same holds for a different constant for every projection (a fluctuating beam), and for regularization with apply_log=True for a positive factor for every projection (one factor with sorting). Stripe removal thus neither creates nor removes differences between projections as a whole.",
  "all sinograms, offsets and profiles over projections, window sizes, wavelets with perfect reconstruction, chunk counts and sorting algorithms that compare values",
  "tests use one sinogram and one offset; profiles over projections are arbitrary functions",
  (RM,"remove_stripe_based_sorting"),(RM,"remove_stripe_based_filtering"),(RM,"remove_stripe_based_normalization"),(RM,"remove_stripe_based_regularization"),(RM,"remove_stripe_based_wavelet_fft"),(RM,"remove_stripe_based_2d_filtering_sorting"))

p("Flat-field correction does not depend on gain, offset and orientation of the detector",
  "If projections, flat field and dark field are read out as a*x + b (a not 0), flat_field_correction with a dark field and equal exposure times returns the same images, sinograms or stacks, whatever further options, unless flat minus dark sums to zero; with b = 0 also without dark field and for every exposure ratio. If rows and columns of projections, flat and dark field are rearranged in the same way (mirrored, rolled, permuted), so is the result; the projections of a sinogram or stack may be in any order.",
  "all images, sinograms and stacks with any dead pixels, gains, offsets, ratios and permutations",
  "tests compare a few values of one image; data, gains and permutations are unbounded",
  ("algotom/prep/correction.py","flat_field_correction"))

p("Frequency filters follow exposure, thickness and orientation",
  "For every ratio >= 0, pad and size, fresnel_filter of c*image (c > 0) is c times the filtered image, with and without logarithm; with the logarithm the filtered product image1**a * image2**b (two absorbers in the beam) is the product of the filtered images to these powers, and filtered images are positive. A mirrored sinogram (dim=1) gives the mirrored result, a projection turned by 180 degrees (dim=2) the turned result; each row of a sinogram is filtered on its own. mtf_deconvolution is linear; it and apply_gaussian_filter return the turned result for an image turned by 180 degrees, and separate_frequency_component along the columns the mirrored parts for a mirrored image, whatever the window. double_wedge_filter of a 360-degree sinogram turned by 180 degrees (projections in the reverse order, detector mirrored) gives the turned result, for every real mask, ratio, padding and number of iterations.",
  "all positive images, exponents, factors, ratios and pads",
  "images and parameters are continuous; an off-centre window shows as a small asymmetry only",
  ("algotom/prep/filtering.py","fresnel_filter"),("algotom/prep/filtering.py","make_fresnel_window"),("algotom/prep/correction.py","mtf_deconvolution"),("algotom/util/utility.py","separate_frequency_component"),("algotom/util/utility.py","apply_gaussian_filter"),("algotom/prep/filtering.py","double_wedge_filter"))

p("The double-wedge filter does not depend on where a full scan starts",
  "For every 360-degree sinogram, shifting the projections cyclically by any number (the scan starts at another angle) shifts the result of double_wedge_filter in the same way and changes nothing else; the filter is linear in the sinogram. Both for every number of iterations, ratio, padding and real mask, the default one or the caller's.",
  "all sinograms, shifts, factors, masks, ratios, paddings and numbers of iterations",
  "an off-by-one in the frequency order or the crop leaves most sinograms plausible; shifts and masks are unbounded",
  ("algotom/prep/filtering.py","double_wedge_filter"),("algotom/prep/filtering.py","make_double_wedge_mask"))
