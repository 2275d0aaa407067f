# Formal model of algotom in Lean 4 — design

## Layout

* `lean/Verif/Np.lean` — the few Python/numpy/scipy primitives the code relies on
  (slicing with negative bounds, `np.array_split`, `np.clip`, integer formatting, exceptions as values).
* `lean/Verif/Model/*.lean` — the model: one definition per modelled function, each with a comment citing
  the file and lines in /repo and listing simplifications.
* `lean/Verif/Props/*.lean` — specifications (independent of the model's helpers), property theorems and,
  beside each, a concrete `example` that its hypotheses are met. Helper lemmas are in the same file in a
  section marked "lemmas", or in `lean/Verif/Lemmas/*.lean`.
* `tools/props.py` generates `properties.jsonl`; `MANIFEST.json` maps properties to theorem names;
  `seeded/LOG.jsonl` records mutation experiments.

## Trusted base

* Lean 4.33.0's kernel; axioms of every theorem are a subset of `propext`, `Classical.choice`, `Quot.sound`.
* The reading of the Python source into the model (the code is not run here).
* Numbers: floating point is modelled by exact arithmetic (a linearly ordered field, usually `ℚ` or any such
  field `K`; `ℝ` where transcendental functions are needed). Rounding, overflow, NaN, float32 conversion
  are NOT modelled unless a property says so.
* External libraries are parameters with recorded assumptions: joblib's `Parallel` is a pool whose tasks start
  and finish in any order and whose results are returned in submission order; numba `prange`/CUDA threads are
  interleaved at load/store granularity; `argsort` is any permutation that sorts; FFT pairs are any inverse pair
  of maps; scipy `interp1d(kind="linear")`, `map_coordinates(order=1)` are their documented formulas;
  scipy's spline interpolation (orders 3 and 5), `shift`, `zoom`, `gaussian_filter`, `savgol_filter` are modelled by their formulas in
  Model/NdiShift, Model/NdiSpline, Model/NdiGauss, Model/Savgol, Model/Pywt (PyWavelets), and the laws assumed of them elsewhere are proved there;
  the file system is a finite set of paths (or a finite map path → content).
* Plotting, printing, HDF5/TIFF encoding, GPU memory transfer, performance are not modelled.

## Convention for false properties

Where the code at the pinned commit violates the property a user relies on, the model follows the code. We prove the
negation for the model with a concrete witness (theorem suffix `_refuted` / `_counterexample`), and the part that does
hold under an explicit guard, with suffix `_partial`; the manifest status is then `partial`.

## Plan per property

See the table below: model → proof idea. (★ = the code violates the full statement.)

| property | plan |
|---|---|
| C01 | Pool machine: state = (pending, running, results by slot); events start/finish in any order; invariant: slot i is empty or f(slice i). Then moveaxis as index permutation. Induction over event lists. |
| C02 | ★ Threads as lists of load/store micro-steps on shared pixels; prange over angles. Refuted by a 2-thread interleaving; partial: any schedule that does not overlap two updates of a pixel (e.g. 1 thread) gives the sum. |
| C03 | Kernel as per-thread function; machine executing threads in any order (any permutation/interleaving since writes are disjoint); equality with Finset sum over angles. |
| C04 | Floor/ceil index computation over an ordered field with floor; show 0≤lo≤hi≤w-1 under the guard used by the code. |
| C05 | argsort as any permutation list sorting the keys; lists of pairs as in the code; round trip by uniqueness of sorting distinct indices. |
| C06 | Composition of C05 with an arbitrary filter on the sorted array; identity and rank statements. |
| C07 | File system = finite set of paths; search loop with fuel-free well-founded argument (pigeonhole on injective suffixes). |
| C08 | Same, folder search starting at count+1. |
| C09 | ★ names by last five characters of zero-padded decimal; injective below 100000, collision witness at 100000. |
| C10 | ★ f-string {:05} injective for all n; lexicographic = numeric iff below 100000. |
| C11 | ★ range logic function by branch over Int; negative int index refuted; partial for 0≤start<stop≤len. |
| C12 | ★ index normalisation by branch; refuted for idx < -n. |
| C13 | ★ len()==3 test vs ndim; refuted at 3-row image; partial otherwise. |
| C14 | ★ mean replacement; refuted for zero-mean stack; partial for nonneg stacks. |
| C15 | Stitch by columns over a field; weights from linspace; panorama theorem. |
| C16 | ★ positional argument shift modelled literally; refuted; partial for defaults. |
| C17 | List model of join. |
| C18 | Index arithmetic + stitch model; axes off the half-pixel grid in Props/StitchFraction.lean under local exactness of ndi.shift. |
| C19 | Index arithmetic + weights; fractional axes in Props/StitchFraction.lean. |
| C20 | Geometry over ℚ/ordered field, floor. |
| C21 | ★ half pixel formula difference. |
| C22 | ★ literal positional call model. |
| C23 | ★ window clipping difference; find_overlap_position_exact pins the window. |
| C24 | argmin over list of candidates; parallel map by C01. |
| C25 | integer arithmetic. |
| C26 | Column means over a field; array_split partition. |
| C27 | pointwise max/mean argument. |
| C28 | interp1d as bracketing neighbours; list model. Props/InterpolateKind.lean: all kinds, exact error condition, polynomials restored. |
| C29 | ★ mask handling literal; refuted for edge masks & aliasing; partial for interior masks. |
| C30 | field arithmetic; flatFieldMem models the same lines with arrays in memory and shows that memory only grows. |
| C31 | ★ row range arithmetic; refuted at last row. |
| C32 | ★/closed form real analysis. |
| C33 | ★ iterated doubling closed form. |
| C34 | DFT/IDFT as explicit sums over the complex numbers, inversion proved. |
| C35 | toIcoMod style floor arithmetic over ℝ. |
| C36 | wrap uniqueness; telescoping; divergence. |
| C37 | ★ literal window. |
| C38 | ★ rounding vs truncation; chunk equality. |
| C39 | ★ statistics as list functions (sorting-based median/percentile); column order as written. |
| C40 | C-order reshape by flat indices; ★ median of medians. |
| C41 | ordered field + floor. |
| C42 | ★ directory = name/content map. |
| C43 | ★ chunk loops as folds with checked slicing; unwritten slices are `none`. |
| C44 | ★ file system = set of component lists. |
| C45 | DFT convolution theorem + closed form kernel with wrap-around. |
| C46 | Model/LogStep.lean: reference semantics of the log step (local name = view of the caller's array until rebound; masked assignment writes through). Exact effect on the caller's array proved for fbp/bpf/gridrec/astra, dfi, the two centre searches and vertical reconstruction. False as stated (`reconstruction_input_unchanged_refuted`); proved: unchanged iff apply_log off or data positive, dfi always, results repeatable. |
| C47 | Model/Vertical.lean getPointsSingleLine over ℝ with both branches (tan / cot) and the radian comparisons of the code; closed form, line equation, unit spacing, exact error condition (Props/Vertical.lean). |
| C48 | Model/Vertical.lean: CPU kernels as read-modify-write thread programs (rows / slices), GPU kernels as stores in any order, chunk loop with crop, flat correction, chunk-wise log test, per-image filter. Props/VerticalBp.lean: every schedule gives the sum over projections; Props/VerticalChunk.lean: every chunk size gives the same, multi-slice = stack of single slices. The final filter/mask/scale (vertrec.py:677-695) is a function of the accumulated slice and is not modelled. |
| C49 | Model/VerticalCenter.lean: candidate list, metric array with the dtype of the candidates (integer truncation), invert, argmin, detector range error. Refuted for integer start/stop/step; proved for float candidates (partial). |
| C50 | Model/Correlation.lean: generate_correlation_map (CPU formula and GPU kernel formula) over ℝ with the numpy errors; Cauchy–Schwarz gives [-1,1], equality case gives 1 exactly at increasing affine copies, -1 at decreasing ones, constants give the code's value, CPU = GPU (Props/Correlation.lean). |
| C51 | Model/Peak.lean: _locate_1d_peak_subpixel, _locate_2d_peak_subpixel and locate_peak (diff / poly_fit). Specs FirstMax, FirstMax2, PeakOk; half-pixel bound, exactness on parabolas and quadratics, edge behaviour (Props/Peak.lean, Props/Shift.lean). |
| C52 | Model/Umpa.lean: the closed-form cost of find_local_shifts_umpa with and without dark-field; completing the square shows it equals the minimum of the windowed residual; exact model gives 0 and the right shift (Props/Umpa.lean). Exact arithmetic; hypotheses exclude the division by zero. |
| C53 | Model/LocalShifts.lean: chunk loop of find_local_shifts(_umpa) with np.array_split, per-chunk normalisation, per-pixel search. False as stated: empty chunks raise IndexError, the documented minimum height is too small for some chunk counts, and with norm=True the y-only search depends on chunking (Props/LocalShiftsY.lean). Proved: chunk independence whenever no chunk is empty. |
| C54 | Model/GlobalShift.lean: the three aggregations of find_global_shift_based_local_shifts, the point list, the pool of local searches. Every aggregation is the mean of a window of the sorted values (value_eq), which gives bounds, order independence, affine equivariance and outlier tolerance. False as stated for "mixed" with an odd number (>= 7) of points: the window is off-centre, so the result is not odd (global_value_mixed_neg_refuted) (Props/GlobalShift.lean). |
| C55 | Model/Regularization.lean: coefficients, gradient of the column means, row chunks, -log, sorting. Props/Regularization.lean gives the true inverse in closed form (green_inverse), characterises the minimiser of the regularised energy (optimal_iff) and compares: the code's matrix agrees with minus the inverse in the first row and column only and is strictly too small elsewhere, but within a factor exp(-tau) (reg_coef_partial); hence for every width >= 2 and alpha > 0 there are column means for which the correction is not the minimiser, and the correction is not mirror symmetric. Block structure, sorted variant, constants and errors proved for all sinograms. |
| C56 | Model/Locate.lean: the slice lists, the search, the weights of locate_slice and locate_slice_chunk. Props/Locate.lean: the rows found are exactly those that show the slice (locate_rows), every slice of the stitched data is found (locate_cover), weights in [0,1] with sum one for pairwise overlaps of at least 2 slices (locate_weights_partial). False: one shared slice gives 0/0; three scans sharing a slice give weights 1,1,1; locate_slice_chunk gives wrong weights in the middle rows for every pair of unequal overlaps (locate_chunk_unequal_refuted); for equal overlaps it agrees with locate_slice (locate_chunk_partial). |
| C57 | Model/Simulation.lean (circleMask), Props/Simulation.lean: exact disc, 0/1, monotone, transposition, flips for odd width; for every even width and every ratio in [0,1] flipping changes the mask (circle_mask_flip_refuted). |
| C58 | Model/GridFix.lean: both passes as folds of cell updates in the order of the loops. Props/GridFix.lean: kept entries, origin of every entry, preferred neighbour, the exact set of filled cells (fix_filled_iff) and when nothing stays empty (fix_complete_iff: iff a sample lies within two steps of the last corner), so the property is false for other tables. |
| C59 | Model/Simulation.lean (addStripe with Python slicing and broadcasting). Props/Simulation.lean: locality, values for the four types; false at the right edge (the last column is never changed, add_stripe_last_refuted) and for stripes as wide as the sinogram (add_stripe_whole). |
| C60 | Model/Simulation.lean (convertXray). Proved for a positive maximum; false for an image of zeros with the default maximum (division by zero). |
| C61 | ★ two-process machine over the file map (check / write steps). |
| C62 | text lines as lists, parser as written. |
| C63 | ★ weights stored through an integer dtype (truncation). |
| C64 | roll/flip index arithmetic; every centre in Props/CenterFraction.lean. |
| C65 | ★ fixZeros with integer store (truncation of the mean). |
| C66 | slab bounds + bilinear sampling on any ordered field; cos/sin as parameters. |
| C67 | ★ DFT by its defining sum; gain at frequency zero computed in closed form. |
| C68 | DFT shift theorem, central/second differences in frequency domain. |
| C69 | ★ filter depending on the row frequency only; gain at row frequency 0. |
| C70 | ★ window indices as written. |
| C71 | Props/ShiftFind.lean on Model/Peak.lean + Model/Correlation.lean: translation recovered for sizes > 2*margin+3 (both axes, axis 0, axis 1); for smaller same-size images the code silently returns (0,0) (find_shift_small_refuted). |
| C72 | Props/LocalRecover.lean on Model/LocalShifts.lean: find_shift_template extends the peak argument of C71 to a template smaller than the reference and is applied to every pixel of find_local_shifts, for every chunking without empty chunks and with or without normalisation. Props/LineRecover.lean: the same argument for dim=1 (pixCol, both directions, CPU and GPU), and normalisation of rolled lines. |
| C73 | Props/GlobalShift.lean: the local searches (along every pool schedule) and each aggregation return the common translation; input-list handling specified (get_input_list); points on the border of the announced box are refused (get_input_list_box_refuted). norm=True divides by row and column sums, which depend on the whole image: Props/GlobalNorm.lean proves the recovery for rolled images and refutes it for translated windows. |
| C74 | Props/Simulation.lean on addBackground: the random numbers are universally quantified. |
| C75 | Props/Masks.lean on ellipticMask, rectangularMask, triangularMask: equations of the figures in rotated coordinates, then symmetries and inclusions. |
| C76 | Props/Masks.lean on spiralPositions: radius step*sqrt(i) gives distinctness; result iff all positions are inside. |
| C77 | Model/Calibration.lean: fit_points_to_ellipse with np.linalg.svd as a parameter (assumed: unit vector of least ‖Av‖ for six or more rows; its existence is proved). Props/Ellipse.lean: five points of an ellipse determine its conic (complex polynomial of degree 4 with five roots), the formulas invert the equation for both signs of the vector, so the ellipse is recovered exactly. For five points the thin decomposition is orthogonal to the true conic (fit_five_points_refuted). |
| C78 | Model/Calibration.lean: linear and ellipse methods with np.polyfit (least squares) and gaussian_filter1d (length and range kept) as parameters. Props/TiltRoll.lean: errors, straight lines, ellipses, range of the angles; the reported tilt is arctan of the axis ratio, not arcsin (tilt_underestimated). |
| C79 | Model/Blobs.lean: label (parameter) + bounding boxes + copy loop. Props/Blobs.lean: specification of label by paths; exact set of kept pixels; exact by size if no region enters the rectangle of another (select_zinger_partial), false otherwise for every numbering (select_zinger_refuted). |
| C80 | Model/Blobs.lean: binarize_image, get_dot_size, select_dot_based_size, centre of mass, calculate_distance (filters, automatic threshold and hole filling are parameters). Props/Dots.lean: threshold errors, 0/1, at most half foreground, contrast independence, symmetry, one dot: distance of the centroids. Props/Dots2.lean: several dots (the extreme dot is selected; dots of one size are all kept). False for several dots with size_opt mean/median (nan). |
| C81 | Model/Stripe.lean: detect_stripe with np.sort, the slice [ndrop:-ndrop-1], the degree-1 polyfit (closed form, proved to be the least-squares line) and both thresholds. Props/Stripe.lean: rearrangement, unit and offset, snr monotone, interval of unmarked values, flat data rejected, exact marking of bright and dark stripes on evenly spread data. Detectors of 1, 2 or 4 pixels (fit of fewer than two points) excluded. |
| C82 | False of the code (the fit drops one more value at the bright end): counterexample polarity_refuted; true for evenly spread data (polarity_partial). |
| C83 | Model/Stripe.lean: remove_stripe_based_interpolation with the smoothing filter and the spline of each degree as parameters. Props/StripeRemove.lean: which columns change and to what, success, no division by zero; linear kind: chord between the nearest unmasked columns. The kind option is refuted (cubic = quintic, degree 2). |
| C84 | remove_large_stripe divides by the factor; false for a column of zeros the detector does not mark (large_factor_refuted, with the default median filter); holds if the trimmed mean of each column is non-zero. |
| C85 | Model/Stripe.lean: generate_blob_mask, both median filters as parameters. Props/StripeRemove.lean: exact set of mask pixels; one flat row makes the whole call raise. |
| C86 | Model/Wavelet.lean: check_level and apply_filter_to_wavelet_component on an abstract decomposition (PyWavelets is a parameter; the filter may raise). Props/Wavelet.lean: full input/output specification. |
| C87 | Model/Wavelet.lean: the level arithmetic of apply_wavelet_decomposition with real base-2 logarithms. False below 16 pixels (level_too_small: pywt gets a negative level), proved from 16 pixels on. |
| C88 | False of the code: apply_wavelet_reconstruction zeroes the caller's components (reconstruct_refuted). Proved: the result ignores exactly the asked level; nothing changes if no level is ignored. |
| C89 | Model/Polar.lean: both coordinate generators and the slice transforms (exact reals, order-1 sampling). False: the radius is scaled by wp/(wp-1) (round_trip_refuted); proved: coordinates inside, forward grid exact, the round trip is exactly that magnification. |
| C90 | Model/Polar.lean: apply_regularization_filter over the pool scheduler. Props/Polar.lean: independent of the schedule, row by row, linear, constants kept, axis = transpose. |
| C91 | Model/Polar.lean: transform_1d_window_to_2d with order 1. Props/Polar.lean: central column is the window; radial for symmetric windows of odd length; exact formula otherwise. |
| C92 | Model/StripeFilters.lean: remove_stripe_based_filtering and remove_stripe_based_2d_filtering_sorting over the DFT low-pass of C69 and the sorting of C06. Props/StripeFilters.lean: stripe-free sinograms are fixed points; the change is confined to the low-pass (resp. high-pass) part. |
| C93 | Model/StripeFilters.lean: remove_stripe_based_fitting with the Savitzky-Golay filter as a parameter (only: keeps shape and constants / commutes with scaling). Proved: admissible window lengths, constants, scaling. Odd sizes are left out of the constant case because of the Gaussian filter's gain (C70). Props/FittingScale.lean: scaling with sorting, constants of odd width refuted. |
| C94 | Model/StripeFilters.lean: remove_all_stripe. False of the code: a sinogram without stripes raises ValueError in the dead-stripe step (remove_all_refuted); proved: what the result is whenever all three detections succeed. |
| C95 | Model/StripeFilters.lean: remove_stripe_based_fft with the exact DFT. False of the code (sign lost; even widths damped by an exact factor); proved for odd widths and non-negative profiles. |
| C96 | Model/StripeFilters.lean: remove_stripe_based_wavelet_fft over an abstract wavelet transform with perfect reconstruction and zero vertical details on stripe-free images (GoodWavelet), which Props/Pywt.lean proves for the filter banks of PyWavelets. Sizes: rejected exactly below the minimum padded size. |
| C97 | Model/StripeFilters.lean: remove_ring_based_fft / _wavelet_fft = polar transform (C89), stripe removal, back, circle mask. Proved: shape, square check, zeros outside the circle, constants with the FFT method for odd widths (negative ones change sign). |
| C98 | Model/Stacks.lean: get_reference_sample_stacks_dls on in-memory hdf files (image stack + image keys). Props/Stacks.lean: what every output slice is, index checks; false of the code for keys that are not one block per file (gaps, shifts), for a file without flats, for a flat block of a single image. |
| C99 | Model/Stacks.lean: get_image_stack, get_tif_stack, get_reference_sample_stacks over in-memory sources. Props/Stacks.lean: exact success condition and value of each slice, and that the three loaders agree with each other. |
| C100 | Model/Stacks.lean: HdfEmulatorFromTif.__init__/__getitem__ on a list of files. Props/Stacks.lean: equal to numpy indexing of the loaded stack; false of the code for empty slices, numpy integers and upper-case names. |
| C101 | Model/Hdf.lean: an hdf file as a forest of groups, datasets and dangling links; keys as character lists, HDF5 path splitting; get_hdf_information, find_hdf_key, load_hdf. Props/Hdf.lean: soundness, completeness, exact multiplicity by induction on the forest; false of the code: datasets inside groups are listed twice, top-level links and non-empty groups not at all. |
| C102 | Model/Hdf.lean: get_hdf_tree line by line. Props/Hdf.lean: a reader's parser of the lines gives back the preorder list of (depth, text); hence the display determines the file's objects. Model/HdfTree.lean: the recursion as written, by paths and look-up in the file, proved equal to the recursion on the tree (members listed in increasing order of names, as h5py does). |
| C103 | Model/Hdf.lean: open_hdf_stream on the set of dataset paths of the new file. Props/Hdf.lean: exact success condition and content; false of the code: substring test refuses siblings, a refused call truncates the file, foreign extensions collapse. |
| C104 | Model/Recon.lean: fbp_reconstruction from argument checks to scaling, over the filter of Model/Fourier and the GPU kernel of Model/BackProj (any order of threads). Props/Recon.lean: success condition, closed formula, chunk = slices, linearity, covariance under rotation, reflection, permutation of projections and mirrored detector (every filter name in Props/ReconMirror.lean: the kernel of any real window is even); false of the code for integer data on one core (filtered values truncated). |
| C105 | Model/Recon.lean: bpf_reconstruction likewise with the circular window. Props/Recon.lean: success condition, formula, linearity, constants, chunk = slices; false of the code if the caller's window does not fit (slice and chunk fall back to different windows). |
| C106 | Model/Recon.lean: make_smoothing_window with scipy's window formulas. Props/Windows.lean: range, monotone away from the middle (polynomial in the cosine), symmetric; frequency zero kept and +-k alike for odd lengths; false of the code for even lengths. |
| C107 | Model/Dfi.lean: generate_mapping_coordinate in exact reals (arctan2 = argument of a complex number). Props/Dfi.lean: polar coordinates of every pixel, range, central row and column fall on samples. |
| C108 | Model/Dfi.lean: __dfi_handle_angles; scipy's spline interpolation is a parameter assumed exact at sample positions. Props/Dfi.lean: for consistent projections, ascending angles give the projection at i*step; descending angles give the one at i*step + 2*angles[0] (false of the code unless the scan starts at a multiple of pi). Props/Dfi5.lean: the fold of 360-degree scans mixes every row with the projection at a fixed distance, zero only for an odd number of rows with both ends. |
| C109 | Model/Dfi.lean: dfi_reconstruction over the same interpolation parameter. Props/Dfi2.lean: column and row sums of the image are projections (Fourier slice property), total. Props/Dfi3.lean: success condition, chunk = slices, mask, linearity, projections of the returned image; a chunk of one row is taken for one sinogram (refuted). |
| C110 | Model/SliceMetric.lean: entropy, sharpness, one search and the two-stage search; the reconstruction is a parameter. Props/SliceMetric.lean: the search returns the first best candidate (iff). Props/SliceMetric2.lean: both stages (iff), range, metrics; near the detector edge the fine search always raises (refuted). Props/SliceMetric3.lean: scale invariance, instance with filtered back-projection. |
| C111 | Model/VisualCenter.lean: candidates, file names, loop. Props/VisualCenter.lean: candidates inside the detector, complete, names distinct, files written before an error; last column and zoom below one half refuted. |
| C112 | Model/VisualCenter.lean: ndi.zoom positions, ndi.shift as an unprefiltered cubic B-spline with arbitrary boundary rule. Props/VisualCenter.lean: zoomed label exact iff zoom = (m-1)/(n-1) (refuted with the default zoom); mirrored half exact for rows linear in the position, a three-point blur in general (refuted). |
| C113 | Model/GpuShifts.lean: device functions (coefficients, maximum, refinement), launch grid, chunk loops of the GPU and hybrid searches in one and two directions, CPU search along x. Props/GpuShifts.lean: cell arrays = correlation map, scans find the first maximum, 1D refinement = locate_peak. Props/GpuShifts2.lean, GpuShifts3.lean: whole images; 1D and hybrid equal to the CPU, 2D GPU within half a pixel and equal for interior maxima, different at the edge (refuted). Props/GpuRecover.lean: C72 for both. |
| C114 | Model/PhaseFft.lean: doubled image, Laplacian windows, forward and backward operators, unwrap_phase_based_fft, the iterative version. Lemmas/FreqOp.lean: frequency-domain operators as circular convolutions. Props/PhaseFft*.lean: whole turns and offsets cancel in exp(i m) exp(-i m'); symmetries from even windows; zero total from Hermitian operators; induction over the iterations. |
| C115 | Model/PhaseFft.lean: surfaceFC with its window argument and the correction of negative values. Lemmas/FreqOp2.lean: plane waves as eigenfunctions, odd multipliers on even images. Props/FcSurface*.lean: arguments and shape, linearity, exact surface for gradients given by cosine series along the axes, mirror symmetry, transposition (iff square), planes (refuted). |
| C116 | Model/VerticalDriver.lean (drivers on top of Model/Vertical.lean) and Model/Recon.lean (fbp). Props/VerticalSection.lean: the row filter is the same, the points of the line are pixels of the horizontal image for odd widths; counterexample with two columns. |
| C117 | Model/VerticalDriver.lean. Props/VerticalDriver.lean: arguments, then accumulate_eq (C48) with complete CPU runs or GPU launches; all three functions equal one formula `slice`; Props/VerticalSection.lean: values depend on the point of the plane only, mask. |
| C118 | Model/HelicalFull.lean on top of Model/Helical.lean. Props/HelicalFull.lean: rows as in C20; which projections see a slice, in closed form; the last projection asked for is off the detector when the stage moves less than a third of a pixel per projection. |
| C119 | Model/StackShift.lean; scipy.ndimage.shift is a parameter assumed exact for whole pixels, the shift search a parameter instantiated with Model/GlobalShift.lean. Props/StackShift.lean: a scan as speckles times a displaced object; refutation of the composition of the two functions. |
| C120 | Model/SpeckleTracking.lean (shifts2d) on top of Model/GlobalShift.lean and the pool of Model/Sched.lean. Props/SpeckleTracking.lean: equality with the serial run, pixel-wise specification, recovery from point_shift. |
| C121 | Model/SpeckleTracking.lean (tracking); search, signal and surface functions are parameters (their models: Model/LocalShifts.lean, Umpa.lean, DarkField.lean, Surface.lean). Refutation: the border left by the search is wider than the border that is mirrored. |
| C122 | Model/Quality.lean (qualityMap). Props/Quality.lean: the padded differences are identified with the wrapped steps between neighbours; range by the triangle inequality, zero set by sums of squares, influence of single pixels by an impulse image. |
| C123 | Model/Quality.lean (weightMask); ndi.zoom is a parameter assumed to keep the requested length and to commute with affine maps (IsZoom, instances linZoom and scipy's spline). Props/Background.lean, using the least-squares lemmas of Props/Stripe.lean. Model/NdiSpline.lean and Props/NdiSpline.lean: the splines of scipy.ndimage (orders 3 and 5) as solutions of the interpolation system, invertible by diagonal dominance; they are exact at samples, linear and keep constants, which discharges the assumptions of C109, C119, C123, C124, C125, C130 and C157. |
| C124 | Model/Quality.lean (normalizeBackground, normalizeFft, calculateThreshold). Props/Background.lean: majority lemma for the median, exact gain of the Fourier Gaussian; refutation by the explicit transform of a row of three pixels. |
| C125 | Model/ForwardProj.lean (makeSinogram); the spline interpolation of the spectrum is a parameter assumed to reproduce the samples (Exact) or to be linear (Linear); instance nearest. Props/ForwardProj.lean: the Fourier slice theorem for the slices along the axes, mirrored slices give mirrored rows (with any interpolation), the zero frequency is the mass. |
| C126 | Model/FlatOptions.lean: flat_field_correction of 2D and 3D data with option dictionaries; the named functions are parameters (name tables of the three modules). Props/FlatOptions.lean: loop invariant over the sinograms of a stack, induction over the options. |
| C127 | Model/Convert.lean: folders as lists of entries, fnmatch with * and ?, find_file by merge sort of names, convert_tif_to_hdf, extract_tif_from_hdf with crop. Props/Convert.lean: meaning of the pattern, slices = windows of the images in alphabetical order, independence of the directory order, round trip by induction over the written files; refutation at 100001 slices by the order of the names. |
| C128 | Model/Convert.lean (loadImage, toBytes). Props/ImageFiles.lean: channel mean, order and quantisation of the 8-bit scaling. |
| C129 | Model/External.lean: gridrec_reconstruction with tomopy.recon as a parameter that turns one sinogram into one square image. Props/External.lean: accepted calls, smallest power of two by Nat.clog, edge continuation and crop by index arithmetic, chunk = slices, circle. |
| C130 | Model/External.lean: astra_reconstruction with the astra algorithm and scipy.ndimage.shift as parameters, method names as character lists, thread pool of Model/Sched. Props/External.lean: choice of method, result for any schedule, centring for whole-column shifts; refutation: names accepted only without a GPU. |
| C131 | Model/CenterMetric.lean (invWedge): make_inverse_double_wedge_mask pixel by pixel, in the reals. Props/CenterMetric.lean: closed form of the mask, then values, zero cross, symmetry, monotony in the radius. |
| C132 | Model/CenterMetric.lean: calculate_center_metric (roll or shift, fill, 2-D DFT, mask, mean), coarse and fine search with the pool of Model/Sched, downsample_cor, find_center_vo; ndi.shift and ndi.gaussian_filter are parameters with stated laws (met by linear interpolation and a moving average, and by scipy's own functions: Model/NdiShift.lean, the cubic B-spline with mirrored coefficients, and Model/NdiGauss.lean, the normalised truncated Gaussian with reflected borders). Lemmas/DftSymm.lean: magnitude of the spectrum of reflected, conjugated, affinely changed arrays. Props/CenterMetric.lean: metric under unit/offset, reversal, mirroring; then searches and the whole function for every schedule. Props/CenterMirror.lean: mirroring with dsp=True, and the counterexample with ties. |
| C133 | Model/DetectSample.lean: detect_sample with the 2-D DFT and gaussian_filter as a parameter. Props/DetectSample.lean: the decision in words, accepted calls, and invariance from the magnitudes of the spectrum (Lemmas/DftSymm.lean): unit/offset, mirroring, reversal, start angle. |
| C134 | Model/WinPath.lean: __correct_path and __get_path on lists of characters. Props/WinPath.lean: the seven replacements are one pass; composed with the meaning of Python string literals they give back the path that was typed; refutation for names starting with a digit. |
| C135 | Model/InputTypes.lean: os.path.splitext, __get_input_type, __get_output_type, __get_shape over an abstract file system. Props/InputTypes.lean: extension rule, the three forms of the same data, refused inputs; refutation for folder names with a dot. |
| C136 | Model/InputTypes.lean: load_image_multiple with the pool of Model/Sched. Props/InputTypes.lean: result equal to the serial one for every schedule, order, when it fails. |
| C137 | Model/UmpaFull.lean: the whole of find_local_shifts_umpa: window, maps, chunk loop, CPU chunk, padding. Props/UmpaFull2.lean: every pixel equals the per-pixel search of C52 on the whole images for every chunk size; border values; errors; refutation for chunk_size=1. |
| C138 | Model/UmpaFull.lean: device functions, kernel, grid and wrapper. Props/UmpaFull3.lean: kernel cost = CPU cost, kernel inversion = locate_peak inversion, then the peak lemmas of C113; recovery by composition with C52. |
| C139 | Props/UmpaFull4.lean: scaling of the six terms (and of the least-squares coefficients of poly_fit, assumed linear) and of the fit, and invariance of locate_peak and of the kernel's search under a positive factor. |
| C140 | Model/GlobalGpu.lean: kernel, launch, driver and fallback on top of GlobalShift and GpuShifts. global_gpu_close (half a pixel, entry by entry and for every aggregation, through global_value_lipschitz: aggregations are monotone and 1-Lipschitz), equality inside, global_gpu_recovers, global_gpu_errors, global_gpu_fallback. Exact arithmetic. |
| C141 | Model/Phantom.lean: both while loops (the first one by well-founded recursion: it ends), the rectangles, the disc. right_spec/left_spec give the loops in closed form, bars_spec the drawn pixels, then lineTarget_spec, lineTarget_binary (26..1615), lineTarget_symm, right_inside, left_inside and inked_in_disc (below 2178). REFUTED for larger sizes: lineTarget_not_binary (1616: horizontal and vertical lines overlap, value -1), left_outside (2420: the narrowest lines on the left are outside the image). |
| C142 | Model/Phantom.lean: all masks of the face. face_mirror; face_spec for size >= 2 (boxes of the rotated parts, sin x <= x, pi < 3.1416: the parts are disjoint and inside the inner ellipse). face_one REFUTES the range for size 1 (value -0.8). |
| C143 | Model/Phantom.lean: addNoise with the random numbers as an arbitrary function. addNoise_spec gives the complete behaviour; addNoise_nonneg, addNoise_zero, addNoise_scale follow. |
| C144 | Model/Writer.lean: a disk maps folders to files; a call is a plan (checks, listing, sizes, range of values, all read from the input folder) and a list of jobs (read input files, compute, write one file). Stops: after any number of jobs, with the folder made, or with arbitrary content in the next file. Proved by framing (stops_frame) and by showing that the results depend on the input folder only (run_eq, jobs_congr): restart, stop_frame, history_keeps. In place it is false: restart_in_place_refuted. |
| C145 | Model/Writer.lean. rescale_output, downsample_output: contents of every output file (the latter by reference to C40), and the folder lists exactly the result in order if and only if it held no other tif file before. REFUTED in general: stale_slices_refuted (overwrite=True leaves old slices). |
| C146 | Model/Writer.lean. rescale_in_place: proved when the tif files of the folder are the slice files 0..n-1 as algotom names them. REFUTED for other names (in_place_names_refuted: an input image is overwritten before it is read) and for downsample_dataset (downsample_in_place_refuted: old slices remain). |
| C147 | Model/ResliceRun.lean: a call is a plan (checks, listing, sizes) and a list of effects on the disk (make a folder, compute files from the disk and write them, remove folders). Stops: between effects or in the middle of one, with any content in the files of that effect. Proved by framing (stops_frame) and by a simulation between two runs that start from disks differing only where the call writes, since every effect reads only the input and files written before (reads_ops, ops_sim): restart, stop_frame. In place it is false: restart_in_place_refuted. |
| C148 | Model/ResliceRun.lean. reslice_tif (also in place) and reslice_hdf: contents of every slice with the specification Post.wanted of C43, the temporary folder is gone, everything else is unchanged; at least two images and two output slices. single_leaves_refuted: with one image left the call raises and leaves its folders behind. That an unrelated folder named like an hdf output is deleted: C44. |
| C149 | Model/Script.lean: a script is a list of calls (Writer.Call, ResliceRun or ConvertRun), run one after the other on one disk; attempts are stopped as in C144/C147. Proved by an invariant: after any attempts the disk agrees with the original outside what the script writes, and two such disks give the same plans, the same written sets and, call by call, the same results (agree_step, agree_run). write_is_call ties the model to that of C144-C146. ordering_refuted: a later call writing to an earlier input breaks it. A folder has no two files of the same name, also after a crash. |
| C150 | Model/VerticalSearch.lean: candidates, logarithm (Model/LogStep, with what it does to the caller's array), mask, slice by slice reconstruction with the model of C117 and files in order. Proved: contents, names, order, error position, independence of chunk/device/schedule. Refuted: candidates past stop off the detector (visual_stop_refuted), names colliding for steps below 0.005 (names_collide_refuted), the mask is not the common field of view right of the middle (mask_right_refuted; mask_left is the part that holds). |
| C151 | Same model; metrics entropy, sharpness, autocorrelation and user functions of the image. The Gaussian filter is a parameter that keeps the shape. The integer truncation of C49 is excluded by candidates in ℝ. |
| C152 | Props/Autocorrelation.lean: DFT over ℂ, Parseval's identity and the triangle inequality show that the maximum of |ifft(|fft|²)| is the value at lag 0, the energy. |
| C153 | Model/ConvertRun.lean: the conversion as a list of effects on the disk of Model/ResliceRun.lean (create the dataset, then write one image per step; a step can be cut short leaving anything in the file). Proved by induction over the images (conv_loop) against Convert.convertTif of C127; frame and restart by the Op framework of C147. convert_in_place_refuted: an output such as all.tif.hdf in the input folder is taken for an image at the restart. Images are 2D. |
| C154 | Same model for the extraction; disk_round_trip composes extract and convert on the disk with round_trip_partial of C127 (the bound of 100000 is that of the five-digit names). |
| C155 | Model/Overlap.lean: Pearson metric over the reals with NaN as none, weights, row normalisation, thread pool (Model/Sched), normalisation by the minimum, argmin with NaN, the two parabola fits with their exact least-squares formulas. Proof: Cauchy-Schwarz with its equality case (the metric is 0 iff the windows are positive affine copies), the minimum of the list is then unique and the parabola refinement moves it by less than 1/2. gauss is any size-preserving operator. constant_window_refuted: one constant window makes the answer the third position, whatever the images. |
| C156 | Same file: chunkHeight, chunkRows with integer arithmetic; omega. chunk_start_refuted: start_row in the lower half is silently replaced by the middle chunk. |
| C157 | Model/Wedge180.lean on the filter of C34 and the interpolation parameter of Model/Dfi.lean (Exact: reproduces samples; Linear; KeepsConst). Index computation of the two shifts and the flip by omega; linearity by induction over the iterations. For an axis half a pixel off the code interpolates twice, about which nothing is claimed. |
| C158 | Model/JoinMany.lean: fractional joint widths through the shift parameter of Model/Stitch.lean, the loop and the padding. Laid is a specification by columns; proved by induction over the images from join_image_joins (C17). Negative joint widths and images of one row (scipy rejects them) are not modelled. |
| C159 | Model/PhaseCorr.lean: gradient, normalised cross-power spectrum, map, peak with wrapped neighbours, parabola, wrapping. Proof: a roll multiplies the spectrum by phases, so the map is the moved inverse transform of the support of the spectrum; equality in the triangle inequality forces a repetition of the image; conjugation makes the neighbours of the peak equal. |
| C160 | As C159; flipping turns the mirror into a roll by 2c - (w - 1). |
| C161 | Model/GpuImage.lean: the chunk loop on 2D images (Model/GpuShifts, depth 1) with the 2D normalisation of each chunk, and the dispatch. Proof: every row is computed from the rows of its own chunk; without normalisation (or with one chunk) the window is that of the whole image; comparison of the two sub-pixel searches as in C113. Refuted for norm=True with an explicit chunk_size, and by IndexError if there are more chunks than searched rows. |
| C162 | Model/SliceMethod.lean: `_reconstruct_slice` with the reconstruction functions of Model/Recon, Dfi and External, defaults of their signatures included. Proof: branch by branch from the acceptance and shape theorems of C104-C109, C129, C130; scale invariance from their linearity, external programs assumed to scale. Refuted for undocumented names. |
| C163 | Props/StitchFraction.lean: over Model/Stitch and Model/JoinMany, both images show one scene (a function of a real coordinate) and the sub-pixel shift is assumed exact for it. Proof: the shifted images meet C15/C17 with the rounded width; offsets computed; a scene with a gradient separates them. Linear interpolation meets the assumption. |
| C164 | Model/ParallelErrors.lean: pool whose tasks end with a value or an exception; Props/ParallelErrors.lean: case analysis of the outcome with the pool invariant of C01. |
| C165 | Model/GlobalNormStack.lean: normalisation of the whole stack before each search; Props/GlobalNormStack.lean: positive affine maps commute with the chunk loop and leave find_shift unchanged; counterexample with the normalisation of rows. |
| C166 | Model/Unwarp.lean: the radial polynomial and the loop over the selected projections; Props/Unwarp.lean: sampling is bilinear interpolation at explicit coordinates. |
| C167 | Model/Savgol.lean: coefficients as the minimum-norm solution of the Vandermonde system, mirrored window; Props/Savgol.lean: the Gram matrix is invertible, hence polynomials are reproduced and the value is that of the least-squares fit. |
| C168 | Model/StackDispatch.lean: the branches of find_local_shifts on stacks over the searches of Model/GpuShifts, Model/LocalShifts and Model/GlobalNormStack. Props/StackDispatch.lean: composition of C113 and C165; counterexample for hybrid with dim=1 at the border. |
| C169 | Model/Pywt.lean: wavedec2/waverec2 of PyWavelets as filter banks with symmetric extension. Props/Pywt.lean: perfect reconstruction in one dimension by re-indexing the double sum over coefficients and taps, then both axes, then induction on the level; haar and db2 checked. |
| C170 | Props/StripeScale.lean, on the models of C13, C83-C97: each stage is homogeneous (sorting permutation unchanged, factors and masks unchanged, filters scaled), errors included; counterexamples with a zero-mean column and a single bright pixel. |
| C171 | Props/RowOrder.lean: the sorted sinogram is the same list for every order (sorted permutations are equal), and the position of a value in a column without repeats is determined by the value; counterexample with a tie. |
| C172 | Props/MirrorStripe.lean: a relation between a sinogram and its mirror image is kept by every stage (sorting column by column, median windows by reflectIdx(n-1-x) = n-1-reflectIdx(x), detector by reversal of a list, dilation, edge rule, linear interpolation with neighbours swapped); counterexample with a window of two columns. Props/MirrorFft.lean: a Fourier multiplier applied to a mirrored image is the multiplier at negated frequencies, and for real images the complex conjugate is the multiplier at both frequencies negated; the window is even along axes of odd length; 4 x 4 counterexample by explicit transforms. |
| C173 | Props/MonotoneStripe.lean: an increasing map sends the sorted column to the sorted column and a decreasing one to its reversal; the median of an odd window commutes with a decreasing map (k-th smallest against k-th largest); putting the values back is determined because each value occurs once. |
| C174 | Props/OffsetStripe.lean, OffsetStripe2.lean, OffsetStripe3.lean: every step is shown to send a sinogram shifted by a profile over projections to a shifted one: the Fourier filter along columns is linear and acts on the profile alone, the median and Gaussian filters act along rows, chunk means shift by the mean of the profile, the regularisation coefficients of a constant line vanish, and the wavelet detail coefficients of a row-constant image vanish. With sorting the shift has to be one constant; the sign-alternating filter keeps constants constant only on an even number of projections, and a counterexample with three projections is computed exactly with third roots of unity. |
| C175 | Props/FlatUnits.lean, on the model of C126 (Model/FlatOptions.lean): the denominator (difference, zeros replaced by the mean) is shown to scale with the gain and to commute with permutations of rows and columns; the quotient then is unchanged or rearranged. No hypothesis on dead pixels other than that the divisors do not sum to zero (flat_field_gain_balanced shows what happens otherwise). |
| C176 | Props/FresnelSymm.lean, on the model of C34 (Model/Fourier.lean: fresnelFilter). The core is linear (C34), so logarithm and exponential turn products of powers into products of powers. Orientation: a reflection conjugates the spectrum of a real line or image up to phases; the window is real, so the real part of the result is reflected whether or not the padded window is symmetric. Rows: dim=1 transforms each row alone. Props/FilterSymm.lean: the same for mtf_deconvolution, apply_gaussian_filter and separate_frequency_component (alternating signs there, which a reflection multiplies by a constant), and for double_wedge_filter (one real multiplier per iteration). |
| C177 | Props/WedgeStart.lean, on the model of C34 (wedgeFilter). A cyclic shift of the rows multiplies the spectrum by phases depending on the row frequency only (dft_roll), so every multiplier commutes with it (multiplier_roll); padding and cropping act on columns. Linearity: filter2_linear. Both by induction over the iterations. |
