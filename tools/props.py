"""Single source for properties.jsonl (run: python3 tools/props.py)."""
import json, os
P = []
U="algotom/util/utility.py"; L="algotom/io/loadersaver.py"; CV="algotom/io/converter.py"
PC="algotom/prep/conversion.py"; CA="algotom/prep/calculation.py"; RM="algotom/prep/removal.py"
CO="algotom/prep/correction.py"; PH="algotom/prep/phase.py"; PO="algotom/post/postprocessing.py"
RE="algotom/rec/reconstruction.py"; VR="algotom/rec/vertrec.py"; SI="algotom/util/simulation.py"
CR="algotom/util/correlation.py"; CB="algotom/util/calibration.py"; FI="algotom/prep/filtering.py"
def p(title, statement, quantifier, why, *anchors):
    P.append(dict(id="C%02d"%(len(P)+1), title=title, statement=statement, quantifier=quantifier,
                  why_tests_cant=why, anchors=[{"file":f,"symbol":s} for f,s in anchors]))

# ---------------------------------------------------------------- scheduling
p("Parallel slice processing equals the serial map",
  "parallel_process_slices(data, f, ..., axis=a, ncore=n) returns the 3D array whose slice i along axis a is f applied to slice i of the input, for every worker count and every order in which workers pick up and finish tasks; the number of slices along a is unchanged and no slice is dropped, duplicated or permuted.",
  "every 3D array, every per-slice function, axis in {0,1,2}, every worker count >= 1 and every interleaving of task start/finish events",
  "interleavings of pool workers are unbounded; a test run sees one schedule on one machine",
  (U,"parallel_process_slices"))
p("CPU back-projection is independent of thread interleaving",
  "The multi-threaded CPU back-projection used by fbp_reconstruction/bpf_reconstruction gives, for every interleaving of its threads, the same image as a sequential sum over all projection angles.",
  "every sinogram, every number of angles, every assignment of angles to threads and every interleaving of their loads and stores",
  "a lost update needs one particular interleaving of two read-modify-write sequences; tests almost never hit it and cannot rule it out",
  (RE,"back_projection_cpu"))
p("GPU back-projection kernels are schedule independent and equal the angle sum",
  "The GPU back-projection kernels (single slice and chunk of slices) give, for every order in which the grid's threads execute, at every pixel inside the image exactly the sum over angles of the interpolated (with edge_pad: edge-extended) projection value, and the chunk kernel equals the stack of single-slice results; threads beyond the image write nothing.",
  "every sinogram chunk, image size, grid size covering the image, and every execution order of the threads",
  "thread schedules on a GPU cannot be enumerated by tests",
  (RE,"back_projection_gpu"),(RE,"back_projection_gpu_chunk"))
p("Back-projection reads only inside the detector",
  "During back-projection every interpolation access touches detector columns in [0, width-1]: a pixel whose detector position is outside contributes nothing and no index is negative or past the end, for every centre of rotation and angle list.",
  "all image sizes, centres, angles and pixel positions (all real detector positions)",
  "an out-of-bounds read in compiled numba code is silent; only a proof over all positions excludes it",
  (RE,"back_projection_cpu"),(RE,"back_projection_gpu"))
# ---------------------------------------------------------------- sorting
p("sort_forward / sort_backward round trip",
  "For any 2D array and either axis, sort_backward applied to the two outputs of sort_forward returns the original array exactly, whatever order the (unstable) argsort gives to equal values; the sorted output is non-decreasing along the axis and each line is a permutation of the input line.",
  "every 2D array of totally ordered values (ties included), axis 0 and 1, every admissible result of argsort",
  "tie-breaking of the unstable sort is unspecified; tests see one of exponentially many permutations",
  (U,"sort_forward"),(U,"sort_backward"))
p("Sorting-based stripe removal only re-ranks",
  "remove_stripe_based_sorting replaces the value of rank r in each column by the smoothed sorted value of rank r of the same column, back at the original position. Hence with a smoothing filter that leaves the sorted image unchanged the sinogram is returned unchanged (in particular when all columns hold the same multiset of values and a horizontal median filter is used), and pixel ranks inside a column are preserved whenever the filtered columns are still non-decreasing.",
  "all sinograms, all window sizes, every tie-breaking of the sort",
  "universal over data and tie-breaking",
  (RM,"remove_stripe_based_sorting"))
# ---------------------------------------------------------------- io naming
p("Non-overwriting file names are fresh",
  "make_file_name returns a path at which nothing exists: the given path when free, otherwise the same stem with a numeric suffix; the search always terminates. save_image(..., overwrite=False) therefore never changes an existing file.",
  "every finite file system content and every requested path",
  "termination and freshness depend on the whole directory state, which tests only sample",
  (L,"make_file_name"),(L,"save_image"))
p("make_folder_name gives a new folder name",
  "make_folder_name returns, after finitely many steps, a name prefix_NNNN (zero padded to the requested width) for which no folder exists yet, NNNN being the smallest free index counted from one past the number of existing entries with that prefix.",
  "every finite set of existing entries, every prefix and zero-prefix width",
  "depends on the whole directory state",
  (L,"make_folder_name"))
p("save_image_multiple writes one distinct file per slice",
  "save_image_multiple on a stack of n images writes n pairwise different file names, so each saved slice survives and file k holds slice k.",
  "every number of images n, start index and prefix",
  "the failure starts only at very large indices that no test would write to disk",
  (L,"save_image_multiple"))
p("extract_tif_from_hdf / tif stacks keep slice order",
  "File names written by extract_tif_from_hdf are pairwise distinct, and sorting them as strings gives the numeric slice order (so converting back with convert_tif_to_hdf restores the order).",
  "every dataset length and index range",
  "the string/number order mismatch appears only beyond 5 digits",
  (CV,"extract_tif_from_hdf"),(CV,"convert_tif_to_hdf"))
p("extract_tif_from_hdf extracts exactly the requested slices",
  "With index=(start, stop, step) exactly the slices start, start+step, ... < stop of the chosen axis are written; with an integer index exactly that slice, Python style, is written; None means all slices.",
  "every dataset shape, axis, and index specification (including negative)",
  "all combinations of start/stop/step and axis lengths",
  (CV,"extract_tif_from_hdf"))
p("get_tif_stack index selection",
  "get_tif_stack(base, idx=...) returns the image of the sorted file list at the requested position, with Python semantics for a negative position, and reports an error for a position outside the list.",
  "every number of files and every integer index",
  "all indices incl. out-of-range ones",
  (L,"get_tif_stack"))
p("Dark/flat normalisation of references",
  "The flat/dark helper used by the radiograph/sinogram loaders averages a 3D stack of references along axis 0 and leaves a 2D reference unchanged, for every array shape.",
  "all reference arrays of 2 or 3 dimensions, including images with exactly 3 rows",
  "only one unusual size triggers the failure",
  (L,"__check_dark_flat_field"))
p("Zero-division guard",
  "After the speckle-stack loader's fix_zero_div step non-zero entries are unchanged, zero entries become the mean of the stack, and no entry of the stack is zero, so dividing by the result is always defined.",
  "every array",
  "universal over arrays", (L,"__get_ref_sam_stacks_dls"))
# ---------------------------------------------------------------- conversion
p("Image stitching blends consistently",
  "stitch_image on two images with overlap v returns an image of width w1+w2-v whose non-overlapping parts are the inputs' own columns, whose overlap is a convex combination (weights in [0,1] summing to one) of the two inputs; if both inputs are views of one panorama the panorama is returned exactly.",
  "all image sizes, all whole overlaps from 1 to min(w1,w2) (fractions: see the claim on overlaps that are not whole numbers), both sides, with norm=False and a total weight of one",
  "all sizes/overlaps", (PC,"stitch_image"),(PC,"make_weight_matrix"))
p("stitch_image_multiple honours its options",
  "stitch_image_multiple(list, overlaps, norm=False) stitches without intensity normalisation, i.e. equals the left fold of stitch_image(..., norm=False).",
  "all lists of images and overlaps, both values of norm and total_width",
  "argument mix-ups are value dependent", (PC,"stitch_image_multiple"))
p("join_image layout",
  "join_image places two images side by side with a gap of joint_width-like size: the result has width w1+w2+gap, the columns away from the seam are the inputs' own columns in order, and the seam (last two columns of the left image, the gap, first three columns of the right one) is filled linearly between its two neighbouring columns; with norm the second image is scaled so that the three-column means next to the seam agree.",
  "all sizes and whole gaps, both sides", "all sizes/gaps", (PC,"join_image"))
p("360-to-180 degree conversion keeps geometry",
  "convert_sinogram_360_to_180 returns n//2+1 rows and a width and centre such that the returned centre is the middle (W-1)/2 of the stitched sinogram; output row i stitches row i with the mirrored row i+n-n//2-1 (exactly the opposite one for odd n), and an ideal 360-degree scan of a wide sinogram is reproduced.",
  "all sinogram sizes and centres", "all sizes and centres", (PC,"convert_sinogram_360_to_180"))
p("extend_sinogram complements",
  "extend_sinogram: width becomes 2n-overlap, rows are unchanged, the pad is zero, and for each ray the two copies' weights add to one, so that back-projecting over 360 degrees counts each measured ray exactly once.",
  "all sinogram sizes, all centres (both sides)", "all sizes and centres", (PC,"extend_sinogram"))
p("Helical sinogram rows stay on the detector",
  "generate_sinogram_helical_scan at an admissible index only reads detector rows between 0 and height-1, linear interpolation weights are in [0,1] and sum to one, and the angles returned correspond to the projections used.",
  "all scan geometries (rational pitch, pixel size, number of projections, heights) and all admissible slice indices",
  "continuous geometry parameters", (PC,"generate_sinogram_helical_scan"),(CA,"calculate_maximum_index"))
# ---------------------------------------------------------------- calculation
p("Centre from overlap is the mirror axis",
  "If the second half of a 360-degree scan is the mirror of the first about detector position c, find_center_360/find_center_projection convert the overlap found into exactly c.",
  "all widths, overlaps and centres on either side", "all geometries", (CA,"find_center_360"),(CA,"find_center_projection"))
p("find_overlap forwards its options",
  "find_overlap(mat1, mat2, win_width, side=None, denoise=d, norm=n) evaluates each side with exactly the same denoise/norm options as with side given, and returns the better one.",
  "all images and option values", "argument order bugs are value dependent", (CA,"find_overlap"))
p("Overlap found equals the true overlap",
  "For either side, the overlap size and offset reported for the best matching window position are the geometric overlap of the two images at that position, for every window width the function accepts.",
  "all image widths, window widths and match positions", "off-by-one only for particular parities", (CA,"find_overlap"),(CA,"search_overlap"))
p("Centre search returns a minimiser in range",
  "The coarse and fine search of find_center_vo return candidates inside the requested interval at which the metric is minimal over all candidates tried, independent of ncore.",
  "all metrics, start/stop/step and search radii", "all metrics and ranges", (CA,"coarse_search_cor"),(CA,"fine_search_cor"),(CA,"find_center_vo"))
p("Phase correlation wraps to signed shifts",
  "find_shift_based_phase_correlation maps the peak position of the cyclic correlation to the signed shift of smallest magnitude congruent to it.",
  "all image sizes and peak positions", "all sizes", (CA,"find_shift_based_phase_correlation"))
# ---------------------------------------------------------------- removal
p("Normalisation-based stripe removal equalises column means",
  "After remove_stripe_based_normalization the mean of every column within every chunk of rows equals the smoothed column mean; rows are partitioned into num_chunk consecutive chunks and with sigma such that smoothing is the identity nothing changes.",
  "all sinograms, smoothing filters and 1<=num_chunk<=rows", "all data", (RM,"remove_stripe_based_normalization"))
p("remove_zinger only touches outliers and never brightens",
  "remove_zinger leaves every pixel that is not above threshold unchanged, and (for non-negative data and threshold) each changed pixel is replaced by a value not larger than before: the mean of its 8 neighbours at the given distance, wrapping around the borders (or 1 when that mean is zero).",
  "all images, thresholds and sizes", "all data", (RM,"remove_zinger"))
p("Stripe removal leaves good columns alone",
  "interpolate_inside_stripe, remove_dead_stripe (residual=False) and remove_large_stripe (norm=False) change only columns detected as stripes (or next to one); remove_large_stripe(norm=True) divides the other columns by their factor only; dead/interpolated columns are filled by linear interpolation between the nearest good columns, so they lie between them, and the first and last two columns are never altered by it; with kind='cubic'/'quintic' interpolate_inside_stripe fills by a spline of degree 2/3 through the good columns of the same row, and needs that many rows and columns plus one; large-stripe columns get the smoothed value of each pixel's rank.",
  "all sinograms and stripe masks", "all masks", (RM,"remove_dead_stripe"),(RM,"remove_large_stripe"),(U,"interpolate_inside_stripe"))
p("Blob removal by mask",
  "remove_blob_1d(sino_1d, mask_1d) (and remove_blob row by row) returns a line equal to the input where the mask is 0 or within two pixels of the ends, and interpolated between the nearest unmasked pixels elsewhere, for every mask, and does not modify its arguments.",
  "all lines and masks (masks touching the edges included), repeated calls", "edge masks and aliasing", (RM,"remove_blob_1d"),(RM,"remove_blob"))
# ---------------------------------------------------------------- correction
p("Flat-field correction",
  "flat_field_correction on floating-point data computes (proj-dark)/(flat-dark) pixelwise, never divides by zero, gives 1 where proj=flat and 0 where proj=dark (where flat differs from dark), and does not modify its arguments.",
  "all projections, flats and darks of equal size", "all data", (CO,"flat_field_correction"))
p("unwarp_sinogram_chunk equals row-by-row unwarping",
  "Each row block of unwarp_sinogram_chunk(start, stop) equals the rows that unwarping whole projections gives; in particular with a zero distortion model the chunk is data[:, start:stop, :].",
  "all heights, start/stop ranges (up to the last row), distortion models", "boundary ranges", (CO,"unwarp_sinogram_chunk"),(CO,"unwarp_sinogram"))
p("Beam hardening correction is a normalised increasing map",
  "beam_hardening_correction maps 0 to 0 and 1 to 1 and is strictly increasing on [0,1] for every q>0 and n>=2, so pixel order is preserved and output stays in [0,1].",
  "all pixel values in [0,1], all q > 0 and n >= 2 (smaller n is rejected; with opt True/False)", "continuous parameters", (CO,"beam_hardening_correction"))
p("upsample_sinogram scale",
  "upsample_sinogram(sino, scale, center) returns a sinogram with scale times as many angular steps, for every scale >= 1.",
  "all sinogram sizes, all scale >= 1", "only some scales tested", (CO,"upsample_sinogram"))
p("Padding then cropping is lossless in frequency filters",
  "Filters that pad, apply a Fourier multiplier and crop keep the shape and return the input unchanged when the multiplier is one (fresnel_filter with ratio 0, mtf_deconvolution with a window of ones, double_wedge_filter with a mask of ones); fresnel_filter keeps constant images for every ratio and is linear when no log is applied; double_wedge_filter keeps constant sinograms; the two parts returned by separate_frequency_component add up to the input.",
  "all images, sizes, ratios, pad sizes; exact complex arithmetic", "all data and pads", (FI,"fresnel_filter"),(CO,"mtf_deconvolution"),(U,"separate_frequency_component"))
# ---------------------------------------------------------------- phase
p("Wrap to pi",
  "The phase wrapping used by unwrapping returns a value in [-pi, pi) that differs from the input by an integer multiple of 2 pi, and is idempotent.",
  "all real phases", "continuous domain", (PH,"_wrap_to_pi"))
p("Phase unwrapping recovers smooth phase gradients",
  "If neighbouring true phases differ by less than pi then the wrapped differences of the wrapped phase equal the true differences; unwrap_phase_based_cosine_transform therefore returns the true phase exactly, up to its mean value.",
  "all 2D phase images of any size satisfying the sampling condition", "all images", (PH,"unwrap_phase_based_cosine_transform"),(PH,"_wrap_to_pi"))
p("Fourier window symmetry of surface reconstruction",
  "The frequency grid of the Frankot-Chellappa window treats rows and columns alike: transposing the image size transposes the window.",
  "all image sizes", "only square sizes are tested", (PH,"_make_window_FC_method"))
p("Transmission/dark-field extraction stays in the image and does not depend on chunking",
  "get_transmission_dark_field_signal reads only pixels inside the image for every shift field and returns the same result for every number of processes/chunks.",
  "all shift fields, window sizes and ncore", "fractional shifts near .5 at the border", (PH,"get_transmission_dark_field_signal"))
# ---------------------------------------------------------------- post
p("Dataset statistics columns",
  "get_statistical_information / get_statistical_information_dataset report (min, max, p_low, p_high, mean, median, variance) in the documented order, the dataset version aggregating per-slice statistics.",
  "all datasets", "column swaps are invisible when mean is near the median", (PO,"get_statistical_information_dataset"),(PO,"get_statistical_information"))
p("Downsampling averages disjoint blocks",
  "downsample(mat, cell_size, method) equals, at block (i,j[,k]), the mean/max/min/median over that cell, trailing incomplete cells are dropped; downsample_dataset processes the data slab-wise with the same result.",
  "all array sizes, cell sizes and methods", "all sizes", (PO,"downsample"),(PO,"downsample_dataset"))
p("Rescaling to integers is bounded and monotone",
  "rescale(mat, nbit, minmax) maps values into [0, 2^nbit-1], is monotone, maps minimum to 0 and maximum to 2^nbit-1, and never wraps around.",
  "all arrays, nbit in {8,16}, all minmax with min<max", "all data", (PO,"rescale"))
p("overwrite option of dataset writers",
  "rescale_dataset(..., overwrite=True) / downsample_dataset write their result to exactly the requested output path; with overwrite=False an existing file is never changed.",
  "all file-system states and both option values", "file system states", (PO,"rescale_dataset"),(PO,"downsample_dataset"))
p("reslice_dataset reorders without loss",
  "reslice_dataset writes, for axis 1 (or 2), output slice j holding input column j of every input image (transposed as requested) within the requested crop, for tif and hdf input alike and for every chunk size.",
  "all dataset sizes, crops, chunk sizes and input types", "all sizes and crops", (PO,"reslice_dataset"))
p("reslice_dataset deletes only its own temporary data",
  "After reslice_dataset finishes no file or folder that existed before the call (other than the requested output) has been deleted.",
  "all file-system states and output paths", "requires the adversarial directory layout", (PO,"reslice_dataset"))
# ---------------------------------------------------------------- rec
p("Ramp filter kernel",
  "apply_ramp_filter convolves every (padded, wrapped around) row of the sinogram with the band-limited ramp kernel: 1/4 at offset 0, 0 at even offsets and -1/(pi n)^2 at odd offsets n, and the kernel is even.",
  "all sinograms, widths, pads and pad modes", "all widths", (RE,"make_2d_ramp_window"),(RE,"apply_ramp_filter"))
p("Reconstruction does not modify the caller's sinogram",
  "fbp/bpf/gridrec/astra/dfi reconstruction with apply_log leave the input sinogram array unchanged.",
  "all sinograms (including non-positive values) and options", "aliasing effects need aliased observation after the call", (RE,"fbp_reconstruction"),(RE,"dfi_reconstruction"))
# ---------------------------------------------------------------- vertrec
p("Vertical slice geometry",
  "For slice offset s and angle alpha in [0,180], the sampled points of a vertical slice are x=(s-c) sin a + k cos a, y=-(s-c) cos a + k sin a; these lie on one line and consecutive points are one pixel apart.",
  "all offsets and angles in [0,180] degrees", "continuous angles; dead branches", (VR,"_get_points_single_line"))
p("Vertical back-projection independent of chunking and threads",
  "Vertical-slice reconstruction accumulates the same image for every chunk size of projections and every thread schedule; multi-slice variants equal the stack of single-slice results.",
  "all projection stacks, chunk sizes, schedules", "schedules and chunkings", (VR,"vertical_reconstruction"),(VR,"vertical_back_projection_cpu"))
p("Centre metric search keeps metric values",
  "find_center_vertical_slice returns the candidate centre minimising the metric for every start/stop/step, integer or float.",
  "all metrics and all start, stop, step of either numeric type", "dtype dependent", (VR,"find_center_vertical_slice"))
# ---------------------------------------------------------------- correlation
p("Correlation coefficients are bounded and exact matches peak",
  "Every value of generate_correlation_map lies in [-1,1]; it is 1 at the position where the template is an increasing affine copy of the reference patch; the map has shape (h0-h1+1, w0-w1+1).",
  "all reference/template images of any size (2D or stacks)", "all data", (CR,"generate_correlation_map"))
p("Sub-pixel peak stays within half a pixel",
  "Sub-pixel refinement of a 1D interior maximum moves the peak by at most half a pixel (method 'diff'), is 0 for symmetric neighbours, and exact for parabolas.",
  "all triples of values with a strict interior maximum", "continuous data", (CR,"_locate_1d_peak_subpixel"))
p("UMPA fit is the least-squares optimum",
  "find_local_shifts_umpa's cost at each shift is the minimum over transmission and dark-field parameters of the windowed squared residual, hence non-negative and zero for an exact model.",
  "all image stacks, windows with non-negative weights and shifts", "all data", (CR,"find_local_shifts_umpa"))
p("Chunked shift search accepts every valid size",
  "find_local_shifts(_umpa) on inputs at least as large as the documented minimum size returns a full-size shift map for every chunk_size, equal to the one computed in one chunk.",
  "all heights, window sizes, margins and chunk sizes", "only certain size/chunk combinations fail", (CR,"find_local_shifts"),(CR,"find_local_shifts_umpa"))
p("Global shift aggregation",
  "find_global_shift_based_local_shifts returns a value between the smallest and largest local shift, independent of the order of points, equal to the common value if all agree, and changes sign when all shifts change sign.",
  "all finite lists of local shifts and all aggregation modes", "all lists", (CR,"find_global_shift_based_local_shifts"))
# ---------------------------------------------------------------- utility
p("Regularisation coefficients solve the normal equations",
  "The coefficient matrix of regularisation-based stripe removal is the inverse of (D^T D + alpha I), so that the correction is the exact minimiser and is symmetric under mirroring the detector.",
  "all widths and alpha>0", "closed form over all sizes", (U,"calculate_regularization_coefficient"),(RM,"remove_stripe_based_regularization"))
p("Grid scan slice location",
  "locate_slice / locate_slice_chunk return for every global slice index the grid row(s) and local row(s) that contain it; where two rows overlap the blending weights are in [0,1] and sum to one.",
  "all grid heights, overlaps, slice indices and chunks", "all overlaps incl. unequal ones", (U,"locate_slice"),(U,"locate_slice_chunk"))
p("Circle mask",
  "make_circle_mask is 0/1 valued, monotone in ratio, symmetric under transposition, and symmetric under flips.",
  "all widths and ratios", "parity of the width", (U,"make_circle_mask"))
p("fix_non_sample_areas fills without altering",
  "fix_non_sample_areas keeps every entry (area, side) of the overlap table whose area is not zero, gives every other entry the (area, side) pair of an entry with sample (that of a direct neighbour if there is one, in the order of the direction), leaves no zero if the table has a sample entry, and does not modify its argument.",
  "all tables of any size and both directions", "all layouts of sample and non-sample cells", (U,"fix_non_sample_areas"))
# ---------------------------------------------------------------- simulation
p("Stripe artifact simulation is local",
  "add_stripe_artifact changes only the columns position..position+size-1, leaves its argument unmodified and keeps the shape.",
  "all sinograms, sizes, positions and strengths", "all parameters", (SI,"add_stripe_artifact"))
p("X-ray image conversion",
  "convert_to_Xray_image maps non-negative path lengths to transmissions in (0,1], 0 maps to 1, and larger path lengths give smaller transmissions.",
  "all non-negative images", "continuous", (SI,"convert_to_Xray_image"))

exec(open(os.path.join(os.path.dirname(os.path.abspath(__file__)),"props_more.py")).read()) if os.path.exists(os.path.join(os.path.dirname(os.path.abspath(__file__)),"props_more.py")) else None
out=os.path.join(os.path.dirname(os.path.abspath(__file__)),"..","properties.jsonl")
with open(out,"w") as f:
    for x in P: f.write(json.dumps(x)+"\n")
print(len(P))
# anchor check
for x in P:
    for a in x["anchors"]:
        src=open("/repo/"+a["file"]).read()
        if ("def "+a["symbol"]+"(") not in src: print("BAD", x["id"], a)
