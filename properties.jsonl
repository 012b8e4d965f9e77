{"id": "C01", "title": "Planewave basis is transverse and orthonormal", "statement": "After update_maxwell_data_k(d,k,G1,G2,G3), every stored planewave has |k+G| = kmag and two unit polarization vectors m, n that are orthogonal to each other and to k+G (and for k+G=0 they are two fixed orthonormal vectors), so every field expressed in the basis is divergence free.", "quantifier": "all real k, all real reciprocal vectors, all grid sizes and all grid indices, including the degenerate directions (k+G parallel to z, k+G = 0)", "why_tests_cant": "k and the lattice range over a continuum, and degenerate directions form measure-zero sets that sampled k-points miss", "anchors": ["src/maxwell/maxwell.c:update_maxwell_data_k", "src/maxwell/maxwell.c:compute_cross"]}
{"id": "C02", "title": "Curl in the planewave basis is exact and its transverse/Cartesian conversions are mutually inverse", "statement": "For every planewave, converting transverse amplitudes to Cartesian and back returns the amplitudes; the combined curl-and-convert steps used to compute D from H and H from E equal (k+G) x v; and the two steps are adjoint to one another.", "quantifier": "all complex amplitudes, all (k+G), both polarizations", "why_tests_cant": "an algebraic identity over all complex inputs, a sign or component slip can be invisible for the symmetric inputs tests use", "anchors": ["src/maxwell/maxwell_op.c:assign_t2c", "src/maxwell/maxwell_op.c:project_c2t", "src/maxwell/maxwell_op.c:assign_cross_t2c", "src/maxwell/maxwell_op.c:assign_cross_c2t", "src/maxwell/maxwell_op.c:assign_ucross_t2c"]}
{"id": "C03", "title": "The preconditioner's inverse curl inverts the curl and never divides by zero", "statement": "The inverse-curl steps of the non-diagonal preconditioner undo the curl steps on transverse fields whenever k+G is non-zero, are finite when k+G = 0, and the diagonal preconditioner multiplies each amplitude by a strictly positive finite factor.", "quantifier": "all amplitudes, all (k+G) including zero, all positive eps inverse means", "why_tests_cant": "the k+G = 0 component exists for only one k-point in a continuum", "anchors": ["src/maxwell/maxwell_pre.c:assign_crossinv_t2c", "src/maxwell/maxwell_pre.c:assign_crossinv_c2t", "src/maxwell/maxwell_pre.c:maxwell_simple_precondition"]}
{"id": "C04", "title": "The Maxwell operator is Hermitian and positive semidefinite", "statement": "maxwell_operator applied to any set of band vectors is a linear operator A with <x|Ay> = conj <y|Ax> and <x|Ax> >= 0 whenever the FFT is a (scaled) unitary transform and every inverse dielectric tensor is Hermitian positive semidefinite; hence every frequency squared it yields is real and non-negative.", "quantifier": "all vectors, all grids, all dielectric tensor fields, all k", "why_tests_cant": "universally quantified over vectors and dielectric functions", "anchors": ["src/maxwell/maxwell_op.c:maxwell_operator", "src/maxwell/maxwell_op.c:maxwell_compute_d_from_H", "src/maxwell/maxwell_op.c:maxwell_compute_e_from_d", "src/maxwell/maxwell_op.c:maxwell_compute_H_from_e"]}
{"id": "C05", "title": "FFT indices enumerate each reciprocal vector exactly once, in the balanced range", "statement": "update_maxwell_data_k assigns to each grid index in a direction of size n a distinct integer harmonic congruent to the index modulo n, and the set of harmonics is closed under negation except possibly for the Nyquist harmonic, so that mirror images of a planewave are themselves in the basis.", "quantifier": "all grid sizes n >= 1 and all indices", "why_tests_cant": "depends on the parity of n for all n; examples use even or 1", "anchors": ["src/maxwell/maxwell.c:update_maxwell_data_k"]}
{"id": "C06", "title": "maxwell_set_planewave and maxwell_dominant_planewave agree", "statement": "Setting a band to a single planewave of integer harmonic g and then asking for its dominant planewave returns exactly k+g for every g representable on the grid, and harmonics outside the representable range are aliased, never written out of bounds.", "quantifier": "all grid sizes, all integer g, all k, all band indices", "why_tests_cant": "unbounded integer arguments and sizes", "anchors": ["src/maxwell/maxwell.c:maxwell_set_planewave", "src/maxwell/maxwell.c:maxwell_dominant_planewave", "mpb/mpb.c:get_dominant_planewave"]}
{"id": "C07", "title": "compute-field-divergence is the spectral divergence", "statement": "compute-field-divergence multiplies each Fourier component of the loaded vector field by the (k+G) vector of that component (with the factor i), i.e. it returns the exact divergence of the band-limited field.", "quantifier": "all fields, all k, all grid components", "why_tests_cant": "an error in one vector component is invisible for in-plane k+G, which is all that 2d examples use", "anchors": ["mpb/fields.c:compute_field_divergence"]}
{"id": "C08", "title": "Tensor inversion is exact", "statement": "maxwell_sym_matrix_invert applied to a non-singular symmetric (or Hermitian) 3x3 tensor returns its inverse, returns a tensor of the same symmetry, and reports an error rather than a non-finite tensor for a singular one.", "quantifier": "all real-symmetric and all complex-Hermitian 3x3 tensors, singular ones included", "why_tests_cant": "continuum of tensors, with a special branch for diagonal ones", "anchors": ["src/maxwell/maxwell_eps.c:maxwell_sym_matrix_invert"]}
{"id": "C09", "title": "The positive-definiteness test is exact", "statement": "maxwell_sym_matrix_positive_definite returns true exactly when v* M v > 0 for every non-zero vector v; check_maxwell_dielectric returns 0 exactly when every stored tensor is positive definite (a condition dropped when negative epsilon is allowed) and, for a 2d grid with a z parity, couples z to nothing; otherwise it returns 1 or 2 according to which condition the first offending tensor violates.", "quantifier": "all tensors, all vectors, all grids", "why_tests_cant": "an equivalence over a continuum of tensors", "anchors": ["src/maxwell/maxwell_eps.c:maxwell_sym_matrix_positive_definite", "src/maxwell/maxwell_eps.c:check_maxwell_dielectric"]}
{"id": "C10", "title": "Tensor rotation is the congruence R^T A R and is undone by the transposed rotation", "statement": "maxwell_rotation_matrix of a unit normal is an orthogonal matrix whose first axis is that normal, maxwell_sym_matrix_rotate computes the change of basis for it (also in place), and rotating back with the transposed matrix restores the tensor.", "quantifier": "all unit normals, all tensors, including normals along an axis", "why_tests_cant": "special-case branch for normals close to an axis, continuum otherwise", "anchors": ["src/maxwell/maxwell_eps.c:maxwell_rotation_matrix", "src/maxwell/maxwell_eps.c:maxwell_sym_matrix_rotate"]}
{"id": "C11", "title": "Subpixel averaging of two media is exact for trivial interfaces and keeps positivity", "statement": "The anisotropic subpixel average of two media with fill fraction f equals the medium itself when both are equal (any f) and the pure medium for f = 0 or 1, gives the harmonic mean normal to and the arithmetic mean parallel to the interface for isotropic media, and is positive definite whenever both media are.", "quantifier": "all positive definite tensor pairs, all fill fractions in [0,1], all interface normals", "why_tests_cant": "matrix inequality over a continuum", "anchors": ["mpb/epsilon.c:mean_epsilon_func", "src/maxwell/maxwell_eps.c:set_maxwell_dielectric"]}
{"id": "C12", "title": "Pixel-averaging mesh covers the pixel symmetrically", "statement": "For every mesh size the points used to average the dielectric function over a pixel are equally spaced, symmetric about the pixel centre and inside the pixel, the number of averaged samples equals the number of mesh points used for normalization, and mesh sizes below one behave as one.", "quantifier": "all mesh sizes (also < 1) and all grid sizes and ranks", "why_tests_cant": "unbounded mesh sizes; zero and negative ones are never in test inputs", "anchors": ["src/maxwell/maxwell_eps.c:get_mesh", "src/maxwell/maxwell_eps.c:average_eps_inv_over_mesh"]}
{"id": "C13", "title": "set_maxwell_mu leaves the dielectric function untouched", "statement": "Setting the permeability stores the averaged inverse mu tensors and leaves every inverse epsilon tensor and its mean exactly as it was, for every grid and material function.", "quantifier": "all grids, all material callbacks, all prior dielectric functions", "why_tests_cant": "the code temporarily swaps the two arrays, so every path through the callee matters", "anchors": ["src/maxwell/maxwell_eps.c:set_maxwell_mu"]}
{"id": "C14", "title": "The parity constraint is the orthogonal projection onto the parity sector", "statement": "Applying the z (or y) parity constraint in place to any band data yields the even (odd) part under the mirror operation, is idempotent and Hermitian, keeps vectors already in the sector, annihilates the opposite sector, and even + odd parts add up to the input.", "quantifier": "all grid sizes nx,ny,nz (odd, even, 1), all band data, both parities", "why_tests_cant": "the in-place pairing loop has distinct paths for the self-paired planes whose indices depend on the size", "anchors": ["src/maxwell/maxwell_constraints.c:maxwell_zparity_constraint", "src/maxwell/maxwell_constraints.c:maxwell_yparity_constraint"]}
{"id": "C15", "title": "Reported parities are true mirror expectation values", "statement": "compute-zparities / compute-yparities return for each band <H|P|H>/<H|H>, a number in [-1,1] that is +1 (-1) for bands in the even (odd) sector.", "quantifier": "all band data, all grid sizes", "why_tests_cant": "bound holds for all vectors", "anchors": ["src/maxwell/maxwell_constraints.c:maxwell_zparity", "src/maxwell/maxwell_constraints.c:maxwell_yparity", "mpb/mpb.c:compute_zparities"]}
{"id": "C16", "title": "Parity requests are validated and remembered consistently", "statement": "A parity request is accepted exactly when it names no contradictory pair and its mirrors leave the current k unchanged, otherwise the program stops; solving at a k incompatible with the current parity stops the program too. After any surviving sequence of init-params, set-parity and solve-kpoint the parity used by the solver is compatible with the current k and is the last one selected, and re-selecting with -1 reproduces it.", "quantifier": "all 32-bit parity words and all finite histories of init-params / set-parity / solve-kpoint commands", "why_tests_cant": "ranges over all histories and all flag words", "anchors": ["src/maxwell/maxwell.c:set_maxwell_data_parity", "mpb/mpb.c:set_parity", "mpb/mpb.c:init_params", "mpb/mpb.c:solve_kpoint"]}
{"id": "C17", "title": "Zero-frequency bands at k=0 are handled exactly", "statement": "At k=0 the constant-field bands placed by the solver are orthonormal, lie in the kernel of the Maxwell operator, respect the requested parity, their number equals the number subtracted from the solve, and the zero-k constraint removes exactly their span from all other bands.", "quantifier": "all parities, all numbers of bands, all vector data", "why_tests_cant": "the count depends on the parity/dimensionality/band-number combination", "anchors": ["src/maxwell/maxwell_constraints.c:maxwell_zero_k_num_const_bands", "src/maxwell/maxwell_constraints.c:maxwell_zero_k_set_const_bands", "src/maxwell/maxwell_constraints.c:maxwell_zero_k_constraint", "mpb/mpb.c:solve_kpoint"]}
{"id": "C18", "title": "Band slices are copied and resized without corrupting other bands", "statement": "Resizing an eigenvector matrix with data preservation keeps every retained entry, slice copies move exactly the requested columns, and no access leaves the allocation; out-of-range requests are rejected.", "quantifier": "all dimensions, all old/new widths, all slices", "why_tests_cant": "index arithmetic for unbounded sizes; the resize is in place with overlapping source and target", "anchors": ["src/matrices/evectmatrix.c:evectmatrix_resize", "src/matrices/evectmatrix.c:evectmatrix_copy_slice", "mpb/matrix-smob.c:evectmatrix_slice2scm"]}
{"id": "C19", "title": "solve-kpoint keeps the band order and solves each band exactly once", "statement": "For every num-bands, block size and number of zero-frequency bands, the block loop of solve-kpoint solves each non-constant band exactly once, in order, each block being deflated against exactly the bands already solved, and the final eigenvector matrix holds constant bands first followed by the solved bands in order.", "quantifier": "all num-bands, block sizes, numbers of constant bands", "why_tests_cant": "loop bounds over unbounded integers with several resize steps", "anchors": ["mpb/mpb.c:solve_kpoint"]}
{"id": "C20", "title": "Eigensolver block size is well defined", "statement": "init-params turns every (num-bands, eigensolver-block-size) setting into an effective block size between 1 and num-bands that for a negative setting never exceeds its absolute value and uses the minimal number of nearly equal blocks.", "quantifier": "all integers num-bands >= 0 and eigensolver-block-size", "why_tests_cant": "integer division corner cases over all integers, e.g. zero bands", "anchors": ["mpb/mpb.c:init_params"]}
{"id": "C21", "title": "Deflation keeps new bands orthogonal to the solved ones", "statement": "The deflation constraint maps any block of vectors to one that is orthogonal (in the inverse-mu inner product) to all previously solved orthonormal bands, leaves vectors that are already orthogonal unchanged, and is idempotent.", "quantifier": "all vectors, all numbers of bands, any orthonormal lower bands", "why_tests_cant": "linear-algebra identity over all vectors", "anchors": ["mpb/mpb.c:deflation_constraint", "src/matrices/eigensolver_utils.c:evectconstraint_chain_func"]}
{"id": "C22", "title": "Square-matrix helpers compute what they say", "statement": "sqmatrix_copy_upper2full yields the Hermitian matrix with the given upper triangle, sqmatrix_symmetrize the Hermitian part, sqmatrix_AeBC the product with optional adjoints, sqmatrix_aApbB the linear combination, traces the trace of the product; for aliased arguments too where documented.", "quantifier": "all sizes and entries", "why_tests_cant": "unbounded sizes, aliasing", "anchors": ["src/matrices/sqmatrix.c:sqmatrix_copy_upper2full", "src/matrices/sqmatrix.c:sqmatrix_symmetrize", "src/matrices/sqmatrix.c:sqmatrix_AeBC", "src/matrices/sqmatrix.c:sqmatrix_aApbB", "src/matrices/sqmatrix.c:sqmatrix_traceAtB"]}
{"id": "C23", "title": "Row-major BLAS wrappers compute the documented product", "statement": "blasglue_gemm computes C := a op(A) op(B) + b C for row-major matrices using a column-major BLAS, for every combination of transposition, leading dimension and size including zero sizes.", "quantifier": "all sizes, strides, transposition flags, scalars", "why_tests_cant": "argument swapping must be right for every shape, including k = 0", "anchors": ["src/matrices/blasglue.c:blasglue_gemm", "src/matrices/blasglue.c:blasglue_herk"]}
{"id": "C24", "title": "Line search reports convergence only at an acceptable step", "statement": "Whatever values the objective returns, when the line search finishes with CONVERGENCE the current step satisfies the sufficient-decrease and curvature conditions with respect to the starting point, an ERROR is reported exactly for invalid inputs, the trial steps always stay inside [stpmin, stpmax], and saving and restoring its state between calls loses nothing.", "quantifier": "all sequences of function values and gradients, all tolerances", "why_tests_cant": "adversarial callback over an unbounded number of iterations", "anchors": ["src/matrices/minpack2-linmin.c:dcsrch", "src/matrices/minpack2-linmin.c:dcstep", "src/matrices/linmin.c:linmin"]}
{"id": "C25", "title": "The line-search bracket only improves", "statement": "Each safeguarded step update keeps the best point seen (its function value never increases), never un-brackets a bracketed minimum, and places the new trial step inside the current limits.", "quantifier": "all function values and derivatives with the required sign relations", "why_tests_cant": "case analysis over a continuum", "anchors": ["src/matrices/minpack2-linmin.c:dcstep"]}
{"id": "C26", "title": "Trace minimisation: the derivative passed to the line search is the derivative of its objective", "statement": "The derivative that the eigensolver's line minimisation reports for the trace along the search direction is the exact derivative of the reported trace value.", "quantifier": "all Hermitian matrices and all step angles", "why_tests_cant": "an analytic identity", "anchors": ["src/matrices/eigensolver.c:trace_func"]}
{"id": "C27", "title": "divide-parallel-processes partitions the processes", "statement": "Dividing P processes into n groups assigns every process to one group in 0..n-1, groups are contiguous, every group is non-empty and group sizes differ by at most one; undividable requests are rejected.", "quantifier": "all process counts and group counts", "why_tests_cant": "unbounded integers; cannot be tested with many processes", "anchors": ["src/util/mpi_utils.c:divide_parallel_processes"]}
{"id": "C28", "title": "Global communication brackets restore the group communicator", "statement": "After begin-global-communications ... end-global-communications, properly paired or nested, communication is again restricted to the same group as before and the returned group identity is right.", "quantifier": "all nestings and histories of divide/begin/end", "why_tests_cant": "history property", "anchors": ["src/util/mpi_utils.c:begin_global_communications", "src/util/mpi_utils.c:end_global_communications", "src/util/mpi_utils.c:end_divide_parallel"]}
{"id": "C29", "title": "Critical sections are exclusive, ordered and deadlock free", "statement": "Under every interleaving of the processes, between mpi_begin_critical_section and mpi_end_critical_section at most one process of the communicator runs, processes pass in rank order, and every schedule can be extended to completion.", "quantifier": "all numbers of processes and all schedules", "why_tests_cant": "schedules are unbounded", "anchors": ["src/util/mpi_utils.c:mpi_begin_critical_section", "src/util/mpi_utils.c:mpi_end_critical_section"]}
{"id": "C30", "title": "Debug allocator accounting is exact", "statement": "For every sequence of allocations and frees the debugging allocator's count equals the number and size of live blocks, it reports an error exactly when a block is freed twice, is unknown, or was overrun, and a balanced program passes the final leak check.", "quantifier": "all histories of malloc/free", "why_tests_cant": "history property", "anchors": ["src/util/debug_malloc.c:debug_malloc", "src/util/debug_malloc.c:debug_free", "src/util/debug_malloc.c:debug_check_memory_leaks"]}
{"id": "C31", "title": "Strided field output writes exactly the selected component", "statement": "matrixio_write_real_data hands to the file exactly the elements data[0], data[stride], ... in order for every size and stride, touching nothing else.", "quantifier": "all sizes and strides", "why_tests_cant": "the copy loop is unrolled by four with a peeled remainder", "anchors": ["src/matrixio/matrixio.c:matrixio_write_real_data"]}
{"id": "C32", "title": "Saved eigenvectors are restored exactly", "statement": "Writing an eigenvector matrix with save-eigenvectors and reading it with load-eigenvectors into a matrix of the same shape restores every value, for every distribution of rows over processes.", "quantifier": "all shapes, all data, all process distributions", "why_tests_cant": "round trip over unbounded shapes", "anchors": ["src/matrixio/evectmatrixio.c:evectmatrixio_writeall_raw", "src/matrixio/evectmatrixio.c:evectmatrixio_readall_raw", "mpb/matrix-smob.c:save_eigenvectors"]}
{"id": "C33", "title": "Output files always get exactly one HDF5 suffix", "statement": "The file actually created for a requested name is the name itself if it already ends in .h5 and the name plus .h5 otherwise, so that creating and reopening by the same name always address the same file.", "quantifier": "all file names", "why_tests_cant": "arbitrary strings", "anchors": ["src/matrixio/matrixio.c:add_fname_suffix"]}
{"id": "C34", "title": "Written complex fields carry the Bloch phase of their own grid point", "statement": "When a field is written with a wavevector, every component at every grid point is multiplied by exp(i k.r) for that very point, for vector and for scalar fields alike.", "quantifier": "all grids, numbers of components, wavevectors, process-local slabs", "why_tests_cant": "index arithmetic over all grid sizes", "anchors": ["src/matrixio/fieldio.c:fieldio_write_complex_field"]}
{"id": "C35", "title": "Inversion-symmetric output reconstructs the full cell", "statement": "With inversion symmetry the stored half of the grid plus the written conjugate half cover every point of the cell exactly once and each reconstructed value is the conjugate of the value at the inverted point.", "quantifier": "all grid sizes (odd and even), ranks and process distributions", "why_tests_cant": "index ranges depend on parity of sizes", "anchors": ["src/maxwell/maxwell_op.c:maxwell_vectorfield_otherhalf", "src/maxwell/maxwell_op.c:maxwell_scalarfield_otherhalf", "src/maxwell/maxwell_op.c:maxwell_cscalarfield_otherhalf", "mpb/fields.c:output_field_to_file"]}
{"id": "C36", "title": "mpb-data interpolation is a periodic convex combination that is exact on the grid", "statement": "The value mpb-data computes at any output point is a convex combination of the surrounding periodic samples, equals the sample on grid points, and only reads inside the input array.", "quantifier": "all dimensions, all real sample positions, all data", "why_tests_cant": "continuum of positions", "anchors": ["utils/mpb-data.c:map_data"]}
{"id": "C37", "title": "mpb-data applies the Bloch phase consistently across periods", "statement": "The periodic extension of a complex field evaluated n periods away equals the base value times exp(2 pi i k n), independent of the order in which points are visited (the phase cache never yields a stale phase).", "quantifier": "all wavevectors, all histories of evaluations", "why_tests_cant": "cache with history-dependent state", "anchors": ["utils/mpb-data.c:add_cmplx_times_phase", "utils/mpb-data.c:map_data"]}
{"id": "C38", "title": "mpb-data rectification preserves the cell", "statement": "The rectified output lattice is orthogonal, has the same volume as the input cell (times the requested multiplicity), keeps the direction of the preferred lattice vector, and the coordinate map composed with the output grid covers it.", "quantifier": "all non-degenerate lattices and options", "why_tests_cant": "continuum", "anchors": ["utils/mpb-data.c:handle_file"]}
{"id": "C39", "title": "Dataset names on the command line are split unambiguously", "statement": "split_fname splits FILE:DATASET at the first colon: the two parts joined by ':' give back the argument, and an argument without colon is all file name.", "quantifier": "all strings", "why_tests_cant": "arbitrary strings", "anchors": ["utils/mpb-data.c:split_fname"]}
{"id": "C40", "title": "Field-point interpolation is periodic, exact on grid points and bounded", "statement": "get-field-point / get-energy-point return the stored value at grid points, a convex combination of the eight neighbours elsewhere, are periodic under lattice translations (up to the Bloch phase), read only inside the stored array, and with inversion symmetry use the conjugate of the inverted point for points not stored.", "quantifier": "all real positions, all grid sizes, both storage modes", "why_tests_cant": "continuum of positions; half-grid index arithmetic", "anchors": ["mpb/fields.c:get_val", "mpb/fields.c:interp_val", "mpb/fields.c:get_field_point"]}
{"id": "C41", "title": "Energies and averages weigh every grid point of the cell exactly once", "statement": "Energy fractions, epsilon averages and field integrals computed from the half-grid stored under inversion symmetry equal the sums over the whole cell.", "quantifier": "all grid sizes odd and even, all symmetric data", "why_tests_cant": "depends on parity of sizes for all sizes", "anchors": ["mpb/fields.c:compute_field_energy_internal", "mpb/epsilon.c:get_epsilon", "mpb/fields.c:compute_field_integral", "mpb/field-smob.c:integrate_fieldL"]}
{"id": "C42", "title": "In-place energy density overwrite is safe", "statement": "compute-field-energy stores the energy density over the vector field it is computed from, and every density value is computed from the original field values.", "quantifier": "all grid sizes and fields", "why_tests_cant": "aliasing of source and target over unbounded sizes", "anchors": ["mpb/fields.c:compute_field_energy_internal"]}
{"id": "C43", "title": "fix-field-phase yields a canonical field", "statement": "fix-field-phase multiplies the loaded field by a unit phase (and the stored eigenvector by the same), maximises the sum of squared real parts, and two fields that differ only by a phase are mapped to the same field.", "quantifier": "all fields", "why_tests_cant": "continuum of phases", "anchors": ["mpb/fields.c:fix_field_phase"]}
{"id": "C44", "title": "Field commands never act on missing or stale data", "statement": "For every sequence of user commands (init-params, set-parity, solve-kpoint, get-*field, compute-*, output-field, field-load ...) a command that needs a loaded field of some type either runs on the field requested by the latest successful load or reports an error leaving the state unchanged; it never dereferences an absent field.", "quantifier": "all command histories", "why_tests_cant": "unbounded histories", "anchors": ["mpb/fields.c", "mpb/mpb.c", "mpb/field-smob.c"]}
{"id": "C45", "title": "Workspace always matches the current problem", "statement": "After any sequence of init-params calls with changing sizes, band counts, block sizes and materials, the allocated work matrices have exactly the sizes and number the current problem needs.", "quantifier": "all histories of init-params", "why_tests_cant": "history property", "anchors": ["mpb/mpb.c:init_params"]}
{"id": "C46", "title": "Group velocity components are taken along the requested Cartesian axes", "statement": "compute-1-group-velocity evaluates the derivative along directions that are mapped to the Cartesian unit axes for every lattice; the reciprocal variant returns the components in the reciprocal basis.", "quantifier": "all non-degenerate lattices", "why_tests_cant": "continuum", "anchors": ["mpb/mpb.c:compute_1_group_velocity", "mpb/mpb.c:compute_1_group_velocity_reciprocal"]}
{"id": "C47", "title": "Field normalisation: stored bands have unit energy", "statement": "For a normalised eigenvector of frequency w the D field returned by get-dfield has unit total electric energy, and likewise B/H, in every mode (including negative-epsilon mode).", "quantifier": "all eigenpairs, in the general build and in the build for inversion-symmetric structures", "why_tests_cant": "universal over eigenpairs", "anchors": ["mpb/fields.c:get_dfield", "mpb/fields.c:get_bfield", "mpb/fields.c:get_hfield"]}
{"id": "C48", "title": "Output file names fit their buffers and identify the field", "statement": "The file name (and the parity suffix appended to it) built by output-field always fits its buffer, and distinct (field, k-point, band, component, parity) combinations get distinct names.", "quantifier": "all parities, k indices, bands, components", "why_tests_cant": "unbounded integers", "anchors": ["mpb/fields.c:fix_fname", "mpb/fields.c:output_field_to_file", "mpb/mpb.c:parity_string"]}
{"id": "C49", "title": "Grid interpolation of files and material grids is a mirror-extended convex combination", "statement": "linear_interpolate returns a convex combination of samples read inside the array for every point in the documented range [-1,2], is exact at pixel centres, and extends the data by mirror reflection outside [0,1].", "quantifier": "all grid sizes, all points in [-1,2]^3", "why_tests_cant": "continuum; out-of-range points are rare", "anchors": ["mpb/epsilon_file.c:linear_interpolate", "mpb/epsilon_file.c:epsilon_file_func"]}
{"id": "C50", "title": "Material-grid gradient weights are the adjoint of the interpolation", "statement": "The weights added to the gradient at a point are exactly the derivative of the interpolated value with respect to each grid value.", "quantifier": "all grid sizes, points and data", "why_tests_cant": "continuum, many index coincidences at boundaries", "anchors": ["mpb/material_grid.c:add_interpolate_weights"]}
{"id": "C51", "title": "material grids set/get round trip and enumeration", "statement": "The list of material grids contains each distinct grid exactly once, the total size is the sum of their sizes, and setting then getting (or getting then setting) the degrees of freedom is the identity.", "quantifier": "all geometries, all grid sizes and values", "why_tests_cant": "unbounded lists", "anchors": ["mpb/material_grid.c:get_material_grids", "mpb/material_grid.c:material_grids_set", "mpb/material_grid.c:material_grids_get", "mpb/material_grid.c:material_grids_ntot"]}
{"id": "C52", "title": "Optimisation objectives return their true gradient", "statement": "The gap objective passed to the optimiser returns the exact gradient of the value it returns, and the TE/TM objective's gradient depends only on the current point, not on previous evaluations.", "quantifier": "all frequencies, all evaluation histories", "why_tests_cant": "analytic identity and history property", "anchors": ["mpb/material_grid_opt.c:maxgap_func", "mpb/material_grid_opt.c:mindiff_func"]}
{"id": "C53", "title": "Band constraints always use frequencies of the current structure", "statement": "For every order in which the optimiser evaluates the objective and the constraints, each constraint value is computed from a solve at that constraint's k-point with the material grid of the most recent objective evaluation.", "quantifier": "all evaluation orders and k lists", "why_tests_cant": "history property with a skip-solve cache", "anchors": ["mpb/material_grid_opt.c:band_constraint", "mpb/material_grid_opt.c:maxgap_func"]}
{"id": "C54", "title": "Randomised material grids stay in [0,1]", "statement": "randomize-material-grid! terminates for every noise amplitude and leaves every grid value in [0,1], out-of-range values being mirror reflected.", "quantifier": "all grid values and noise values", "why_tests_cant": "termination and range over a continuum", "anchors": ["mpb/material_grid.c:randomize_material_gridB"]}
{"id": "C55", "title": "Splitting the k-points over jobs neither loses nor duplicates any", "statement": "For every list and number of chunks, concatenating the chunks returned by list-split for all chunk indices gives back the list, each chunk's first index is the position of its first element, and out-of-range chunk indices give an empty chunk.", "quantifier": "all lists, chunk counts and indices", "why_tests_cant": "unbounded lists and integers", "anchors": ["mpb/mpb.scm.in:list-split"]}
{"id": "C56", "title": "Band ranges and gaps are exactly those of the computed frequencies", "statement": "After any sequence of k-points the reported range of each band is the true minimum and maximum with the k-points attaining them, output-gaps lists exactly the consecutive bands whose ranges do not overlap, and retrieve-gap agrees with it.", "quantifier": "all frequency tables", "why_tests_cant": "unbounded lists", "anchors": ["mpb/mpb.scm.in:update-band-range-data", "mpb/mpb.scm.in:output-gaps", "mpb/mpb.scm.in:retrieve-gap"]}
{"id": "C57", "title": "first-brillouin-zone returns an equivalent point in the first zone", "statement": "first-brillouin-zone terminates and returns a k-point that differs from the argument by a reciprocal lattice vector and is at least as close to the origin as any other equivalent point.", "quantifier": "all k and all lattices", "why_tests_cant": "continuum; skewed lattices are not in the tests", "anchors": ["mpb/mpb.scm.in:first-brillouin-zone"]}
{"id": "C58", "title": "Grid-size optimisation picks the next highly composite size", "statement": "next-factor2357 terminates and returns the smallest integer >= N all of whose prime factors are at most 7. optimize-grid-size! ends and sets grid-size, in each direction, to the smallest such integer at least as large as the size that follows from the resolution, whatever grid-size held before; calling it again changes nothing.", "quantifier": "all N >= 1; all grid sizes with positive components, all previous values of grid-size", "why_tests_cant": "unbounded integers", "anchors": ["mpb/mpb.scm.in:next-factor2357", "mpb/mpb.scm.in:optimize-grid-size!"]}
{"id": "C59", "title": "find-k caches are transparent", "statement": "In find-k every cached (band,k) result equals what a fresh computation would return, and the stored starting guess of each band is the best k evaluated so far, for every order of evaluations.", "quantifier": "all evaluation histories", "why_tests_cant": "history property", "anchors": ["mpb/mpb.scm.in:find-k"]}
{"id": "C60", "title": "Phase consistency between runs", "statement": "fix-phase-consistency multiplies each band by a unit phase after which its overlap with the corresponding old band is real and non-negative; scale-eigenvector rejects scale factors it cannot represent.", "quantifier": "all band data, all scale factors", "why_tests_cant": "continuum", "anchors": ["mpb/mpb.scm.in:fix-phase-consistency", "mpb/matrix-smob.c:scale_eigenvector"]}
{"id": "C61", "title": "Positive definite media give positive definite stored tensors", "statement": "If the material callback returns a positive definite tensor (with its inverse) at every point and the analytic pixel average is positive definite wherever it exists, set_maxwell_dielectric never fails and every tensor it stores is positive definite, so check_maxwell_dielectric never reports non-positive-definiteness afterwards.", "quantifier": "all material functions, grids, lattices, mesh sizes >= 1, interface normals", "why_tests_cant": "a matrix inequality through every averaging branch, over a continuum of materials and interfaces", "anchors": ["src/maxwell/maxwell_eps.c:set_maxwell_dielectric", "src/maxwell/maxwell_eps.c:check_maxwell_dielectric", "mpb/epsilon.c:mean_epsilon_func"]}
{"id": "C62", "title": "A homogeneous medium is represented exactly", "statement": "If the material callback returns the same invertible tensor everywhere, every grid point holds exactly its inverse after set_maxwell_dielectric and the stored mean is a third of its trace, whatever the grid, lattice and averaging mesh.", "quantifier": "all tensors, grids, lattices, mesh sizes (also < 1)", "why_tests_cant": "must hold through every averaging branch and every grid size", "anchors": ["src/maxwell/maxwell_eps.c:set_maxwell_dielectric"]}
{"id": "C63", "title": "Parity classes are the physical mirror classes", "statement": "When the lattice and k are symmetric under the mirror, the even/odd classes used by run-zeven/zodd/yeven/yodd are the eigenfields of the mirror reflection of the magnetic pseudo-vector field: the amplitude pairing of the constraint pairs each wavevector with its mirror image and reflects the Cartesian field; and for a structure with the mirror the even and the odd part of every mode are zero or modes of the same frequency, so that the two runs together find all modes.", "quantifier": "all grid sizes, lattices with the mirror, wavevectors in the mirror plane, band data and planewaves; all structures with the mirror and all their modes", "why_tests_cant": "needs every wavevector and every grid parity; tests use even grids and smooth fields whose Nyquist components vanish", "anchors": ["src/maxwell/maxwell_constraints.c:maxwell_zparity_constraint", "src/maxwell/maxwell_constraints.c:maxwell_yparity_constraint", "src/maxwell/maxwell.c:update_maxwell_data_k"]}
{"id": "C64", "title": "Eigenvector-block algebra computes the matrix expressions it documents", "statement": "Every eigenvector-block operation (X = aX + bY, X = aX + bYS with submatrices and adjoints, X^H X, X^H Y and its slices and submatrix forms, traces, diagonals, scaling one band) computes exactly the documented matrix expression, changes no other memory than its outputs and scratch matrices, and never touches memory outside the matrices it was given; where documented this also holds for equal arguments.", "quantifier": "all sizes (zero included), slices, offsets, flags, scalars and matrix contents", "why_tests_cant": "index arithmetic over all sizes, offsets and strides; a wrong stride shows only for particular non-square or sliced shapes", "anchors": ["src/matrices/evectmatrix.c: evectmatrix_aXpbY, evectmatrix_aXpbYS_sub, evectmatrix_XtX, evectmatrix_XtY_slice2, evectmatrixXtY_sub", "src/matrices/matrices.c", "mpb/matrix-smob.c: scale_eigenvector"]}
{"id": "C65", "title": "The FFT scratch array holds every batch of bands that is transformed", "statement": "For every number of bands, block size and choice of materials, no operation (solver operators, group velocities, overlaps of eigenvectors) transforms more bands at once than the scratch array made by init-params holds, and each requested band is transformed exactly once.", "quantifier": "all band counts, block sizes, with and without permeability", "why_tests_cant": "the limit of 20 bands is only exceeded for particular combinations of block size, band count and permeability", "anchors": ["src/maxwell/maxwell.c:create_maxwell_data", "src/maxwell/maxwell_op.c:maxwell_compute_H_from_B", "mpb/mpb.c:compute_group_velocity_component", "mpb/matrix-smob.c:dot_eigenvectors"]}
{"id": "C66", "title": "The final rotation of a block gives the eigenvalues and orthonormal eigenvectors of the operator restricted to the block", "statement": "The last step of the eigensolver (and of the targeted solver) replaces a block of vectors by an orthonormal basis of the same span in which the operator is diagonal, and reports exactly these diagonal entries in ascending order; if the span is invariant under the operator the results are exact eigenpairs.", "quantifier": "all blocks of independent vectors, all Hermitian operators, all sizes", "why_tests_cant": "a linear-algebra identity over all inputs, on shared memory", "anchors": ["src/matrices/eigensolver_utils.c:eigensolver_get_eigenvals_aux", "src/matrices/eigensolver_utils.c:eigensolver_get_eigenvals"]}
{"id": "C67", "title": "Computing group velocities leaves the solution unchanged", "statement": "compute-group-velocity-component returns one number per band, the same number compute-1-group-velocity-component returns for that band, leaves the stored eigenvectors unchanged, and gives the same answer when called again.", "quantifier": "all bands, block sizes, directions, dielectric and permeability tensors, contents of the scratch arrays", "why_tests_cant": "scratch arrays share storage depending on block size and memory history; the effect appears only for magnetic media", "anchors": ["mpb/mpb.c:compute_group_velocity_component", "mpb/mpb.c:compute_1_group_velocity_component", "src/maxwell/maxwell_op.c:maxwell_compute_H_from_B"]}
{"id": "C68", "title": "The eigensolver's trace never goes up", "statement": "The trace that the conjugate-gradient eigensolver reports at an iteration is never larger than the one it reported at the iteration before, except after an emergency restart with a random block.", "quantifier": "every Hermitian operator, positive definite metric, preconditioner, constraint, starting block, number of work arrays and combination of flags", "why_tests_cant": "Whether every line minimisation lowers the trace depends on the whole history of search directions; a test only sees the histories of a few structures.", "anchors": ["src/matrices/eigensolver.c: eigensolver_lagrange, eigensolver, trace_func", "src/matrices/linmin.c: linmin"]}
{"id": "C69", "title": "The group velocity is the derivative of the frequency", "statement": "The group velocity component reported for a band is the derivative of the band's frequency with respect to the wavevector along the requested direction.", "quantifier": "all structures, wavevectors, directions and differentiable nondegenerate bands", "why_tests_cant": "a derivative over a continuum of structures and wavevectors; a finite-difference test has finite accuracy and covers finitely many structures", "anchors": ["mpb/mpb.c:compute_group_velocity_component", "src/maxwell/maxwell_op.c:maxwell_ucross_op"]}
{"id": "C70", "title": "Dielectric function read from a file is the periodic, mirror-free multilinear interpolant of the data", "statement": "With epsilon-input-file set, the dielectric constant used at any point of space depends only on the point modulo the lattice, equals the value of the multilinear interpolant of the file's voxel data at that point of the unit cell, and therefore never leaves the interval spanned by the data in the file.", "quantifier": "every lattice-coordinate point (any real, positive or negative), every array size nx, ny, nz >= 1 and every data array of that length", "why_tests_cant": "The wrap of a real coordinate, the half-voxel shift and the neighbour choice interact at every voxel boundary; a test samples finitely many points.", "anchors": ["mpb/epsilon_file.c: linear_interpolate, epsilon_file_func"]}
{"id": "C71", "title": "A default material grid covers the unit cell", "statement": "A material grid used as the default material gives, at each point outside all objects, the value a block that fills the unit cell with the same grid would give there, so that the grid's first pixel is at the cell's corner and every pixel has its own place.", "quantifier": "every grid, every point of the cell and every lattice size", "why_tests_cant": "Whether every pixel of every grid lands at its place is a statement about all points and all grid contents; uniform or symmetric grids used in tests hide it.", "anchors": ["mpb/material_grid.c: matgrid_val, material_grid_val", "mpb/mpb.scm.in: material-grid matgrid-init"]}
{"id": "C72", "title": "Saved material grids load back unchanged, resampled or repeated", "statement": "Loading a file written by save-material-grid into a grid of the same size restores every number (for numbers in [0,1]); loading it with supercell (sx sy sz) into a grid sx, sy, sz times as large repeats the numbers periodically; loading any file into any grid gives each pixel the file's interpolated value at the pixel's centre, limited to [0,1], and changes nothing else.", "quantifier": "every grid size, file size (1 to 3 dimensions), contents and supercell", "why_tests_cant": "The index arithmetic and interpolation must be exact at every pixel of every size, including sizes of 1 where the rank of the file changes.", "anchors": ["mpb/material_grid.c: save_material_grid, load_material_gridB, synchronize_material_grid"]}
{"id": "C73", "title": "The gap optimisation problem has the extremal-gap structures as its solutions", "statement": "A point that solves the constrained problem handed to the optimiser by material-grids-maxgap (resp. material-grids-mingap) is a structure whose relative gap between band1 and band2 over the given k-points is the largest (resp. smallest) among all structures.", "quantifier": "every family of structures, every band structure with positive edges, every k-point list", "why_tests_cant": "It is a statement about all feasible points of a constrained problem; running the optimiser only shows where one run ended.", "anchors": ["mpb/material_grid_opt.c: band_constraint, maxgap_func, material_grids_maxmin_gap"]}
{"id": "C74", "title": "What a finished eigensolver run means", "statement": "When the eigensolver returns, the block is orthonormal in the metric and satisfies the constraint, the operator is diagonal in it with the reported eigenvalues, which are sorted and add up to the last reported trace; the last two reported traces agree within the tolerance; the number of iterations is the number of traces reported before the last; and every run ends.", "quantifier": "every Hermitian operator, metric, preconditioner, constraint, starting block, tolerance and combination of flags", "why_tests_cant": "It must hold for every number of iterations, every sequence of restarts and every exit; tests see a handful of converged runs.", "anchors": ["src/matrices/eigensolver.c: eigensolver", "src/matrices/eigensolver_utils.c: eigensolver_get_eigenvals_aux"]}
{"id": "C75", "title": "Reported eigenvalues are upper bounds", "statement": "The j-th eigenvalue the solver reports is never below the j-th true eigenvalue of the operator on the constrained space, and every trace it reports on the way is at least the sum of the lowest true eigenvalues, whether or not the run has really converged.", "quantifier": "every problem, every run and every index j", "why_tests_cant": "A bound over all runs cannot be inferred from converged examples, where the two sides agree.", "anchors": ["src/matrices/eigensolver.c: eigensolver", "src/matrices/eigensolver_utils.c: eigensolver_get_eigenvals_aux"]}
{"id": "C76", "title": "The solver stands still exactly at solutions", "statement": "The gradient of an iteration is zero if and only if the block spans an exact invariant subspace of the operator; and a run that is started from an exact solution returns it.", "quantifier": "every problem and every independent block", "why_tests_cant": "Exact stationarity is not visible in floating point, where no block is exactly a solution.", "anchors": ["src/matrices/eigensolver.c: eigensolver"]}
{"id": "C77", "title": "The targeted solver finds the states nearest to the target frequency", "statement": "With a target frequency w the solver works on the operator (M - w^2)^2, M the Maxwell operator: applied to a block of fields it returns that and touches nothing else but its work array, it is Hermitian and never negative, an eigenvector of M with eigenvalue l becomes one with eigenvalue (l - w^2)^2, and the bands found are the states whose frequencies have the smallest absolute difference from w.", "quantifier": "every structure, wavevector, target frequency, number of bands, block of fields, and number of work arrays the user may select", "why_tests_cant": "A test compares a few bands of one structure; which state is nearest depends on the spectrum, and the failure with too few work arrays depends on options.", "anchors": ["src/maxwell/maxwell_op.c: maxwell_target_operator1, maxwell_target_operator", "mpb/mpb.c: solve_kpoint", "doc/docs/Scheme_User_Interface.md: target-freq"]}
{"id": "C78", "title": "A preconditioner never turns an uphill direction into a downhill one", "statement": "Each of the four preconditioners applies to every band of the block (after the multiplication with the overlap matrix) one fixed linear, Hermitian, positive definite operator, the same for all bands, also at k + G = 0, and writes nothing but its output array; so the preconditioned gradient always has a positive product with the gradient unless that is zero.", "quantifier": "every structure with positive traces of the inverse tensors, wavevector, number of bands, batch size, block of fields and overlap matrix", "why_tests_cant": "A test sees convergence on examples; positivity concerns every field, and the special case k + G = 0 is met at one wavevector only.", "anchors": ["src/maxwell/maxwell_pre.c: maxwell_preconditioner, maxwell_target_preconditioner, maxwell_preconditioner2, maxwell_target_preconditioner2"]}
{"id": "C79", "title": "In a homogeneous medium the preconditioner is the exact inverse", "statement": "In a homogeneous isotropic medium without permeability, at a wavevector where no k + G vanishes, the fancy preconditioner undoes the Maxwell operator exactly, in either order, on every block of fields; and so does the diagonal one.", "quantifier": "every grid, lattice, wavevector with no vanishing k + G, permittivity, number of bands, batch size and block of fields", "why_tests_cant": "No test applies operator and preconditioner one after the other; convergence hides a wrong factor in the preconditioner.", "anchors": ["src/maxwell/maxwell_pre.c: maxwell_preconditioner, maxwell_preconditioner2", "src/maxwell/maxwell_op.c: maxwell_operator"]}
{"id": "C80", "title": "The Davidson solver returns sorted modes bounded by the true ones, and its estimates never rise", "statement": "A run of the Davidson eigensolver that returns gives orthonormal fields that satisfy the constraints, in which the operator is diagonal with the returned eigenvalues in increasing order; the last two iterations agreed to the tolerance; each eigenvalue estimate only goes down from iteration to iteration, through all restarts of the basis; no estimate is below the true eigenvalue of the same number; and with a target the eigenvalues selected are those of the space nearest to it.", "quantifier": "every Hermitian operator, constraint projection, preconditioner, tolerance, number of work arrays, number of bands, initial block and contents of the work arrays, any number of iterations", "why_tests_cant": "Tests use the conjugate gradient solver; a wrong block offset or a basis that is not restarted properly shows only after several restarts and for particular numbers of work arrays.", "anchors": ["src/matrices/eigensolver_davidson.c:eigensolver_davidson", "src/matrices/evectmatrix.c:evectmatrixXtY_sub", "src/matrices/evectmatrix.c:evectmatrix_aXpbYS_sub", "src/matrices/sqmatrix.c:sqmatrix_resize", "src/matrices/sqmatrix.c:sqmatrix_copy_upper2full"]}
{"id": "C81", "title": "The Davidson solver returns on every well-posed problem", "statement": "Started from any independent block the Davidson eigensolver ends after finitely many iterations and returns the modes; in particular it does when the initial fields are already the solution and when the bands fill most of the space.", "quantifier": "every Hermitian operator, constraint projection, preconditioner, tolerance, number of work arrays, number of bands and initial block", "why_tests_cant": "Aborts depend on exact dependence of the new direction on the basis, in any iteration.", "anchors": ["src/matrices/eigensolver_davidson.c:eigensolver_davidson", "src/matrices/sqmatrix.c:sqmatrix_invert"]}
{"id": "C82", "title": "Field variables are values", "statement": "In any script, the field variables made with field-make, rscalar-field-make, cvector-field-make, cscalar-field-make, and the current field, behave as independent values: field-set!, field-copy, field-load, field-map! and cvector-field-nonbloch! change only their destination, a copy keeps its values when the original or the current field changes later (also after a new init-params), field-map! applies the function pointwise even when the destination is among the sources, operations on fields of different sizes or types end with an error message, and no array is accessed outside its bounds.", "quantifier": "every finite sequence of commands, every grid size, every contents of the fields, every user function, every choice of arguments including repeated ones", "why_tests_cant": "the aliasing patterns and histories are unbounded", "anchors": ["mpb/field-smob.c: update_curfield_smob, update_curfield, assert_field_smob, rscalar_field_make, cvector_field_make, cscalar_field_make, field_make, cvector_field_nonblochB, fields_conform, field_set, field_setB, field_load, field_mapLB"]}
{"id": "C83", "title": "Symmetry overlaps are the overlap integrals", "statement": "transformed-overlap of the current D (B) field returns the integral over the cell of the conjugate of the E (H) field with the field transformed by the operation {W|w}, Bloch phases included, with the factor det W for B. So a field that the operation multiplies by l gives l times its energy, a lattice translation R gives exp(-2 pi i k.R) times the energy that compute-field-energy reports, compute-symmetries of a translation returns exp(-2 pi i k.R) for every band, and for a symmetry of the grid and medium the modulus is at most the energy. Another current field, or |det W| different from 1, gives 0.", "quantifier": "every grid, lattice, k point, medium (Hermitian tensors), field, operation {W|w} including fractional translations, number of bands", "why_tests_cant": "the space of fields, lattices and operations is continuous", "anchors": ["mpb/transform.c: transformed_overlap, compute_symmetry, compute_symmetries"]}
{"id": "C84", "title": "Which pixels get an averaged dielectric tensor", "statement": "When the dielectric function is put on the grid with an averaging mesh of more than one point and no analytic average is available, a pixel is averaged exactly if the tensor at one of its corners (2 in one dimension, 4 in two, 8 in three) differs from the tensor at its centre by more than one millionth in some entry. Pixels without such an interface get the inverse tensor at their centre unchanged; pixels with an interface but without a normal direction (vanishing dipole moment of the dielectric function) get the mean of the inverse tensors over the mesh.", "quantifier": "every grid, lattice, averaging mesh with sizes at least one, moment mesh and dielectric function", "why_tests_cant": "A test sees a few structures; the rule must hold for every dielectric function, pixel and mesh, and a missed corner or entry shows only where an interface cuts exactly that corner.", "anchors": ["src/maxwell/maxwell_eps.c:detect_interface_via_corner_check", "src/maxwell/maxwell_eps.c:average_eps_inv_over_mesh", "src/maxwell/maxwell_eps.c:set_maxwell_dielectric"]}
{"id": "C85", "title": "Reported dielectric constants", "statement": "get-epsilon, get-epsilon-point, get-epsilon-inverse-tensor-point and output-epsilon report the dielectric function that is stored. A pixel of an isotropic medium is reported with the constant of the medium, a pixel cut by an interface between two isotropic media with the mean of the two constants weighted by the filling fraction, for every direction of the interface; turning the crystal changes nothing and the value lies between the smallest and largest principal permittivity. The value at a point is that of the linearly interpolated inverse tensor: the value of the pixel at grid points, never above the largest pixel value, never outside the principal permittivities. The printed line has attained extreme values, low <= harmonic mean <= mean <= high and percentages in 0..100. The datasets written by output-epsilon are the entries of the dielectric tensor and its inverse under distinct names.", "quantifier": "every stored tensor field, grid shape (full or half stored), position, filling fraction and interface direction", "why_tests_cant": "The claims are inequalities and identities over all tensors, directions and positions; tests check one structure and one number.", "anchors": ["mpb/epsilon.c:get_epsilon", "mpb/epsilon.c:get_epsilon_tensor", "mpb/fields.c:mean_medium_from_matrix", "mpb/fields.c:interp_eps_inv", "mpb/fields.c:get_epsilon_point", "mpb/fields.c:get_epsilon_inverse_tensor_point", "src/maxwell/maxwell_eps.c:maxwell_sym_matrix_eigs"]}
{"id": "C86", "title": "The gradient of a frequency with respect to the material grids is its derivative", "statement": "After a band has been solved, (print-material-grids-gradient band) prints one number per material-grid value, and each is the exact derivative of the frequency of that band when that value is changed and the structure is set up and solved again. The same numbers, times the scale factor, are what the optimisers add to their gradients.", "quantifier": "for every geometry, every list of overlapping grids, every grid value, every grid resolution, every band with a positive frequency that varies continuously with the value", "why_tests_cant": "A test compares with finite differences at a few structures; the claim is an identity of derivatives for every structure, every overlap of grids and every value, and finite differences cannot distinguish exactness from a small error.", "anchors": ["mpb/material_grid.c: material_grids_addgradient, print_material_grids_gradient", "mpb/fields.c: get_efield, compute_field_squared", "mpb/epsilon.c: epsilon_func"]}
{"id": "C87", "title": "Matching a dielectric file minimises the mean squared difference with its exact gradient", "statement": "(material-grids-match-epsilon-file! file) minimises the mean, over the grid points of the cell, of the squared difference between the structure's dielectric constant and the file's, and the gradient handed to the optimiser is exactly the derivative of that mean with respect to each grid value.", "quantifier": "for every structure, list of overlapping grids, grid values, resolution, and every target file of any size", "why_tests_cant": "A test sees an optimisation finish near a target; a wrong gradient only makes it slower or stop early, and only for structures and files a test did not try. The claim is an identity for all structures, sizes and files.", "anchors": ["mpb/material_grid.c: match_eps_func, material_grids_match_epsilon_file, material_grids_set, material_grids_addgradient_point", "mpb/epsilon_file.c: linear_interpolate", "mpb/epsilon.c: mean_medium_from_matrix"]}
{"id": "C88", "title": "The discretised dielectric function keeps the symmetry of the structure", "statement": "Whatever space-group symmetry the structure has (mirror planes, rotations, inversion, screw axes, glide planes) that maps the grid to itself, the dielectric tensors stored on the grid have it too: the tensor at the image of a grid point is the tensor at the grid point turned by the operation, no matter whether a pixel was averaged analytically, along the computed interface normal, plainly, or not at all. The directions used to find interface normals integrate polynomials of degree 11 over the sphere (circle) exactly and have the symmetry of the cube (dodecagon), their consistency checks never fail, and the normal computed for a plane interface along a symmetry axis of the mesh, or for a smooth profile along any direction, is exact.", "quantifier": "for all grids (one, two, three dimensions), lattices, mesh sizes, dielectric functions and analytic averages with the symmetry, all signed permutations of the lattice directions with translations by grid vectors whose Cartesian form is a symmetry of the moment mesh, all grid points; for all linear forms and powers up to 11; for all directions and profiles of a plane interface", "why_tests_cant": "a test checks one structure on one grid; degenerate bands and symmetry labels rely on the exact symmetry of the discretisation for every structure", "anchors": ["src/maxwell/maxwell_eps.c: set_maxwell_dielectric, get_moment_mesh, average_eps_inv_over_mesh, detect_interface_via_corner_check", "src/util/sphere-quad.c: spherical_quadrature_points, sort_by_distance", "mpb/epsilon.c: mean_epsilon_func"]}
{"id": "C89", "title": "The value of a field at a point", "statement": "Whenever a field variable or the current field is read at a position (rscalar-field-get-point, cvector-field-get-point, cscalar-field-get-point and their -bloch forms, get-energy-point, get-field-point, get-cscalar-point and their bloch forms), the answer is the linear interpolation, on the periodic grid, of the values the field holds at that time, in the inversion-symmetric build with the conjugate of the inverted point for points that are not stored. The forms without -bloch multiply by exp(2 pi i k.p), k being the wave vector of the last solve-kpoint (as documented), unless the field is a non-Bloch one. A field of another type, or no field, ends the program with a message. No array is read outside its bounds. One lattice vector further the envelope is the same and the phase changes by exp(2 pi i k.R).", "quantifier": "all histories of init-params, solve-kpoint, commands that load or compute fields, field-make, field-set!, field-load, field-map!, cvector-field-nonbloch! and point reads; all grids, field contents, positions and lattice sizes; both builds", "why_tests_cant": "The answer depends on the whole history (which array holds what, what was overwritten, the last wave vector) and on the position within the grid; tests read a few points in a few scripts.", "anchors": ["mpb/fields.c: get_energy_point, get_field_point, get_bloch_field_point, get_cscalar_point, get_bloch_cscalar_point, rscalar_field_get_point, cvector_field_get_point, cvector_field_get_point_bloch, cscalar_field_get_point, cscalar_field_get_point_bloch, interp_val, get_val", "mpb/field-smob.c: assert_field_smob, update_curfield_smob"]}
{"id": "C90", "title": "A gap optimisation starts from an allowed point", "statement": "The starting point that material-grids-maxgap and material-grids-mingap hand to the optimiser is within the bounds they hand over, and satisfies every band constraint once the objective was evaluated there. Band numbers outside 1..num-bands are rejected, also by material-grids-min-tetm-gap.", "quantifier": "all grids and contents, all k-point lists, all band structures, all orders of evaluating the constraints", "why_tests_cant": "Feasibility is a statement about every structure's frequencies and every content of the grids; a test sees one structure, and an infeasible start only shows as a slow or failing optimisation.", "anchors": ["mpb/material_grid_opt.c: material_grids_maxmin_gap, material_grids_min_tetm_gap, band_constraint"]}
{"id": "C91", "title": "mpb-data transforms exactly the fields it should and keeps the rest of the file", "statement": "For each field of a file (all those MPB writes, or the one named with -d), mpb-data writes that field resampled on the output grid: real fields as their periodic extension, complex fields as their Bloch extension, vector fields with components along the output axes, the first two dimensions exchanged with -T. Output goes to names with -new appended or to a new file; no other dataset changes, and what earlier files left behind has no influence. Without options that ask for a transformation the output datasets are identical to the input datasets.", "quantifier": "all files (any datasets, sizes, lattice, copies and Bloch vector), all options, all histories of earlier files in the same run", "why_tests_cant": "A test compares one output file with a stored one; that every dataset of every file is mapped correctly and nothing else is touched for all combinations of options needs a proof over all of them.", "anchors": ["utils/mpb-data.c: handle_file, handle_dataset, handle_cvector_dataset", "utils/mpb-data.1", "src/matrixio/matrixio.c: matrixio_read_real_data, matrixio_create_dataset"]}
{"id": "C92", "title": "Runs and band functions", "statement": "A run solves each k-point of its share of the list once, in order, numbered as in the whole list; after solving a k-point it calls each of the given band functions once per computed band (a function without argument once), and during these calls the current k-point, its index, the frequencies and the fields are those just computed. After the run the lists of frequencies, band ranges and gaps are those of the solved k-points. The dielectric function is written once, before any k-point is solved, by the first of several jobs; the jobs together solve every k-point exactly once, and mpb-split prints each result once. Functions made with combine-band-functions, output-at-kpoint and output-dpwr-in-objects, and the band functions given to find-k, are called exactly for the bands and k-points they are meant for.", "quantifier": "all lists of k-points, numbers of bands, numbers of jobs and job indices, solver results, and band functions", "why_tests_cant": "tests run a few band functions and one job; the order of calls and the partition over jobs must hold for every list, every split and every function", "anchors": ["mpb/mpb.scm.in: run-parity, combine-band-functions, output-at-kpoint, output-dpwr-in-objects, find-k", "mpb/mpb-split-preinstall.in"]}
{"id": "C93", "title": "What a k-point run returns, across all blocks of bands", "statement": "When solve_kpoint returns, for any number of bands, block size, eigensolver (conjugate gradients or Davidson, with or without a target frequency), starting fields, tolerance and number of work arrays: the bands after the constant ones are normalised and orthogonal to each other in the inner product of the inverse permeability, across all blocks; they satisfy the parity and zero-k constraints; each reported eigenvalue is the Rayleigh quotient of its band; within one block the operator does not couple the bands and the eigenvalues increase; the sum of any selection of reported eigenvalues is at least the sum of as many lowest exact eigenvalues, and in one block the n-th reported one is at least the n-th exact one. Across blocks the frequencies need not increase, and at k = 0 with a permeability the orthogonality across blocks is not enforced.", "quantifier": "all Hermitian operators, positive definite permeabilities, constraints, numbers of bands, block sizes, starting fields, tolerances, flags and LAPACK results that keep their contracts", "why_tests_cant": "the block structure, the starting fields and the tolerance range over infinite sets; a test sees one converged run", "anchors": ["mpb/mpb.c:solve_kpoint", "mpb/mpb.c:deflation_constraint", "src/matrices/eigensolver.c:eigensolver", "src/matrices/eigensolver_davidson.c:eigensolver_davidson", "src/matrices/eigensolver_utils.c:eigensolver_get_eigenvals"]}
{"id": "C94", "title": "A parallel run computes what a serial run computes", "statement": "With MPI the grid is distributed over the processes, by rows of the first dimension in Fourier space and of the second in real space. For every number of processes and every such distribution, including processes that hold nothing, applying the Maxwell operator, the inverse permeability and the group velocity operator, products and traces of blocks of bands, linear combinations of bands, removal of solved bands, the parity constraints and parities, the treatment of k = 0, setting a plane wave and finding the dominant one give on each process its part of what one process would compute, and every process gets the same numbers. The same holds for the fields loaded by get-dfield, get-efield, get-hfield and get-bfield and for the energies and densities of compute-field-energy. Hence every computation built from these, in which each step is chosen from the numbers computed before, gives what it gives on one process, and the processes never wait for each other in different operations.", "quantifier": "all numbers of processes, all distributions of the rows of the grid, all grid sizes with at least two dimensions, all numbers of bands and of bands per FFT, all bands, tensors and wave vectors, all old contents of buffers, all programs over these operations and all numbers of steps", "why_tests_cant": "A test runs with one number of processes and one grid; wrong offsets or sums show only for some distributions, often only when the grid does not divide evenly or a process holds nothing.", "anchors": ["src/maxwell/maxwell.c: create_maxwell_data, maxwell_set_planewave, maxwell_dominant_planewave, update_maxwell_data_k", "src/maxwell/maxwell_op.c: maxwell_operator, maxwell_muinv_operator, maxwell_ucross_op, maxwell_compute_fft", "src/maxwell/maxwell_constraints.c: maxwell_parity_constraint, maxwell_zparity, maxwell_yparity, maxwell_zero_k_constraint, maxwell_zero_k_set_const_bands", "src/matrices/evectmatrix.c: evectmatrix_XtY, evectmatrix_traceXtY, evectmatrix_aXpbYS", "mpb/mpb.c: deflation_constraint", "src/util/mpi_utils.c: my_global_rank, divide_parallel_processes", "mpb/fields.c: get_dfield, get_hfield, get_bfield, get_efield, compute_field_energy"]}
{"id": "C95", "title": "Frequencies do not depend on the unit of length and scale with the materials", "statement": "Multiplying all lattice vectors by s, every stored inverse permittivity tensor by 1/t and every stored inverse permeability tensor by 1/u gives the same modes with every squared frequency divided by s^2 t u. The tensors that the program computes from a structure should likewise not depend on the unit of length in which lattice and structure are given. They do: interfaces are looked for with an absolute threshold on a length, so a structure in small units is averaged as if it had no interfaces.", "quantifier": "all grids, lattices, wavevectors, permittivities, permeabilities, positive factors, structures and averaging meshes", "why_tests_cant": "a scaling law relates every pair of runs; a test compares a few lattices in units near one, where the absolute threshold does not show", "anchors": ["src/maxwell/maxwell_op.c: maxwell_operator, maxwell_muinv_operator", "src/maxwell/maxwell.c: update_maxwell_data_k", "src/maxwell/maxwell_eps.c: set_maxwell_dielectric", "mpb/mpb.c: init_params"]}
{"id": "C96", "title": "Moving the origin of the cell does not change the modes", "statement": "If the tensors on the grid are moved cyclically by any number of grid steps in each direction, the problem has the same frequencies with the same multiplicities, and a one-to-one linear map that keeps the norm takes the modes of the one exactly to the modes of the other.", "quantifier": "all grids, lattices, wavevectors, permittivities, permeabilities and displacements by whole grid steps", "why_tests_cant": "it relates all structures and all displacements; it fails for an FFT sign, index or scaling error that shows only for structures without inversion symmetry", "anchors": ["src/maxwell/maxwell_op.c: maxwell_operator, maxwell_muinv_operator, maxwell_compute_fft", "src/maxwell/maxwell.c: update_maxwell_data_k"]}
{"id": "C97", "title": "Turning or reflecting the crystal, or listing its lattice vectors in another order, does not change the modes", "statement": "If the lattice vectors and the tensors at each grid point are turned or reflected as a whole, with the same wavevector coordinates, then the problem has the same frequencies with the same multiplicities and the modes correspond one to one through a linear map that keeps the norm, although the code builds its two transverse directions from fixed axes. The same holds if the lattice vectors are listed in another order, together with the grid sizes, the components of the wavevector and the axes of the grid.", "quantifier": "all grids, lattices, wavevectors, permittivities, permeabilities and orthogonal matrices; all reorderings", "why_tests_cant": "the transverse basis is chosen by cases on the direction of each wave vector; a test covers a few orientations", "anchors": ["src/maxwell/maxwell.c: update_maxwell_data_k", "src/maxwell/maxwell_op.c: maxwell_operator, maxwell_muinv_operator", "mpb/mpb.c: init_params"]}
{"id": "C98", "title": "The search direction is the documented preconditioned conjugate gradient", "statement": "In every iteration of the default eigensolver the direction of the line minimisation is the preconditioned gradient of the trace, made orthogonal to the current block when asked for, plus the Polak-Ribiere (with enough work space) or Fletcher-Reeves multiple of the previous direction; the multiple is zero on the first iteration, after a reset and after a reorthonormalisation, and a restart forgets the history.", "quantifier": "all operators, preconditioners, constraints, blocks, flags, work-space sizes and iterations", "why_tests_cant": "a wrong multiple or a missed reset only slows convergence on the problems one happens to try; the solver still converges to the same numbers", "anchors": ["src/matrices/eigensolver.c: eigensolver_lagrange, main loop"]}
{"id": "C99", "title": "Work arrays carry no information and are never exceeded", "statement": "What the caller left in the work arrays of the eigensolvers has no influence on the eigenvectors, the eigenvalues, the number of iterations or the progress reports, and a run that passes the initial check uses only work arrays that were provided, different ones for different purposes.", "quantifier": "all problems, all contents of the work arrays, all numbers of work arrays, all runs of any length", "why_tests_cant": "arrays are usually zero or hold earlier fields; a stale read shows only for some contents and some iteration counts", "anchors": ["src/matrices/eigensolver.c: eigensolver_lagrange", "src/matrices/eigensolver_davidson.c: eigensolver_davidson"]}
{"id": "C100", "title": "Overlapping material grids combine by the documented rule", "statement": "At a point covered by a material grid the value is the least one, the product or the mean (as the topmost grid says) of the values of that grid and the matching grids directly below it, down to the first material that does not match; the default material counts as the lowest object. Grids match if they have the same rule and the same two dielectric constants.", "quantifier": "all stacks of objects of any height, all grids, all values up to 1", "why_tests_cant": "the number and the order of the overlapping objects are unbounded", "anchors": ["mpb/material_grid.c: compatible_matgrids, matgrid_val"]}
{"id": "C101", "title": "The topmost object determines the material at a point", "statement": "The dielectric and the permeability tensor at a point are those of the topmost object that contains it; an object of nothing is a hole through everything below it; the input file is used exactly outside all objects, and otherwise the default material is used there; a material function stands for its value at the point.", "quantifier": "all stacks of objects, materials, input files, material functions and points, both builds", "why_tests_cant": "the stack of objects, the material functions and the points are unbounded", "anchors": ["mpb/epsilon.c: epsilon_func, material_epsilon", "mpb/medium.c: make_medium"]}
{"id": "C102", "title": "A material with a permeability is noticed", "statement": "The solver works with the permeability of the material at each point: when it leaves the permeability out, it is 1 at every point.", "quantifier": "all geometries, default materials, grids, input files and points", "why_tests_cant": "any number of objects of any kind; the omission is silent", "anchors": ["mpb/medium.c: has_mu, material_has_mu, reset_epsilon", "mpb/epsilon.c: epsilon_func (as mu_func)"]}
{"id": "C103", "title": "Reversing the wavevector, or moving it by a reciprocal lattice vector, leaves the frequencies unchanged", "statement": "The frequencies computed at a Bloch wavevector k, at -k (for the structure with conjugate tensors, which is the same structure when they are real) and at k plus any reciprocal lattice vector are the same, with the same multiplicities, so only the irreducible part of the Brillouin zone need be computed.", "quantifier": "all grids, lattices, wavevectors, permittivities and permeabilities", "why_tests_cant": "On fine grids and for low bands the deviation is below the discretisation error; which wavevectors give exactly equal frequencies depends on the parity of every grid size and on which planewaves are kept.", "anchors": ["src/maxwell/maxwell.c: update_maxwell_data_k", "src/maxwell/maxwell_op.c: maxwell_operator", "mpb/mpb.c: set_kpoint_index, solve_kpoint"]}
{"id": "C104", "title": "More permittivity or permeability never raises a frequency", "statement": "If two structures share grid resolution, lattice and wavevector, and the permittivity and permeability that the solver stores for the second are, at every grid point, not smaller than those of the first (as positive-definite Hermitian tensors, complex off-diagonal entries included), then for every frequency the second structure has at least as many independent modes up to that frequency as the first. So its n-th frequency is never higher than the n-th frequency of the first.", "quantifier": "every grid size, lattice, wavevector (zero included), every pair of pointwise ordered positive-definite permittivity and permeability tensors, every frequency bound and mode count", "why_tests_cant": "it compares the complete spectra of all pairs of ordered structures; a test compares a few printed frequencies of two structures", "anchors": ["src/maxwell/maxwell_op.c:maxwell_operator", "src/maxwell/maxwell_op.c:maxwell_muinv_operator", "src/maxwell/maxwell.c:update_maxwell_data_k"]}
{"id": "C105", "title": "Bands are continuous in the wavevector: slopes never exceed the largest speed of light in the structure", "statement": "If the permittivity is nowhere below a and the permeability nowhere below b (as Hermitian tensors), then moving the wavevector by the Cartesian vector kappa changes each frequency, counted with multiplicity from below, by at most |kappa|/sqrt(a b). The number of bands is twice the number of grid points at every wavevector.", "quantifier": "every grid, every non-degenerate lattice, every pair of wavevectors, every pair of stored inverse tensor fields within the bounds, every number of bands", "why_tests_cant": "A test compares a few wavevectors of a few structures; the bound that justifies interpolating a band diagram must hold for every structure and every step.", "anchors": ["src/maxwell/maxwell.c:update_maxwell_data_k", "src/maxwell/maxwell_op.c:maxwell_operator", "src/maxwell/maxwell_op.c:maxwell_muinv_operator", "mpb/mpb.c:solve_kpoint"]}
{"id": "C106", "title": "Debugging tools for material grids print the derivatives they claim and put the grid back", "statement": "(print-material-grids-deps-du) prints, for every point of the cell in order, the dielectric constant there and its exact derivative with respect to each material-grid value in order. (print-material-grids-deps-du-numeric du) prints in the same format the difference quotients of step du, so the two agree in the limit du -> 0, and leaves the grids and the dielectric function as they were. (material-grids-approx-gradient kpoint band iu du) returns the difference quotient (f(u+du e_iu) - f(u))/du of the band frequency and leaves grids, dielectric function and frequencies as they were.", "quantifier": "every structure, list of overlapping material grids, grid values, resolution, step, band and index of a grid value", "why_tests_cant": "A test compares a few printed numbers of one structure; the claims relate every printed entry to a derivative or quotient, for all structures, and the restoration must hold after every call.", "anchors": ["mpb/material_grid.c: material_grids_approx_gradient, print_material_grids_gradient, print_material_grids_deps_du, print_material_grids_deps_du_numeric", "mpb/epsilon.c: mean_medium_from_matrix"]}
{"id": "C107", "title": "The bands of a supercell are the folded bands of the small cell", "statement": "Describing a crystal by a cell that is s1 x s2 x s3 times as large (lattice vectors and grid multiplied, material repeated) changes no physics: at every wavevector k the frequencies of the large cell, with their multiplicities, are exactly the frequencies of the small cell at the s1 s2 s3 wavevectors (k - r)/s, 0 <= r < s, taken together (moved by a whole reciprocal-lattice vector in some cases if the small cell has an odd number of grid points in that direction), and the modes of the large cell are exactly the nonzero sums of modes of the small cell with the same frequency.", "quantifier": "every grid, lattice, repetition, wavevector, FFT batch size and every pair of stored permittivity and permeability fields", "why_tests_cant": "A test compares a few bands of a few supercells within a tolerance; that no band is lost, added or moved by the folding must hold for every structure and repetition, also for odd grids where the kept planewaves are not balanced.", "anchors": ["src/maxwell/maxwell.c:update_maxwell_data_k", "src/maxwell/maxwell_op.c:maxwell_operator", "src/maxwell/maxwell_op.c:maxwell_muinv_operator", "src/maxwell/maxwell_op.c:maxwell_compute_fft", "mpb/medium.c:reset_epsilon"]}
{"id": "C108", "title": "Output files contain exactly what they should and are read back as written", "statement": "The file written by output-field and the functions built on it contains, whatever was in it before, exactly the documented datasets: for a vector field the real and imaginary parts of the components asked for with the Bloch phase, and the wavevector; for a real scalar field the array and, for epsilon, the components of the tensor and its inverse; always the lattice vectors and the description. A scalar file given as epsilon-input-file yields the same sizes and values. A dataset or attribute that was written is read back unchanged whatever happens to other names; a file without a dataset and an attribute of the wrong kind are reported.", "quantifier": "all fields, grids, lattices, wavevectors and components; all previous contents of the file and all sequences of later calls", "why_tests_cant": "tests write a few files with fixed contents; the claim ranges over all contents, histories of calls and shapes", "anchors": ["src/matrixio/matrixio.c: matrixio_create_dataset, matrixio_write_data_attr, matrixio_write_string_attr, matrixio_read_data_attr, matrixio_read_string_attr, matrixio_read_real_data, find_dataset", "src/matrixio/fieldio.c: fieldio_write_complex_field, fieldio_write_real_vals", "mpb/fields.c: output_field_to_file, output_scalarfield", "mpb/epsilon_file.c: get_epsilon_file_func"]}
{"id": "C109", "title": "The energy flux of a mode is its energy times its group velocity, and no group velocity exceeds the speed of light", "statement": "After any history of commands get-poynting leaves E* x H of the band at every grid point (without Bloch phase) and get-tot-pwr the sum of the electric and magnetic energy densities, the user's field variables untouched. The integral over the cell of the real part of the Poynting vector, along any direction, is the number compute-1-group-velocity-component returns for that direction; the integral of the total energy density of a mode is 2 (1 for each field). If eps >= a and mu >= m everywhere, every computed group velocity component is at most 1/sqrt(a m).", "quantifier": "all command histories, all grids, lattices, wavevectors, Hermitian tensor media, bands of non-zero frequency, directions, cell volumes, contents of work arrays", "why_tests_cant": "A test compares flux and group velocity for a few structures to a tolerance; the identity is algebraic and must hold for every medium, wavevector, direction and history of field commands.", "anchors": ["mpb/mpb.scm.in:get-poynting", "mpb/mpb.scm.in:get-tot-pwr", "mpb/fields.c:get_efield", "mpb/fields.c:get_dfield", "mpb/fields.c:get_hfield", "mpb/fields.c:compute_field_energy", "mpb/mpb.c:compute_1_group_velocity_component", "mpb/field-smob.c:field_mapLB"]}
{"id": "C110", "title": "The fields of a mode obey Maxwell's equations", "statement": "The fields returned by get-bfield, get-dfield, get-hfield and get-efield for a solved band obey, planewave by planewave, div B = 0, div D = 0, curl H = -i omega D and curl E = i omega B with the stored frequency omega; at every grid point D = epsilon E and B = mu H; fields of different bands are orthogonal (the integrals of E1* . D2 and B1* . H2 vanish).", "quantifier": "every grid, wavevector, Hermitian dielectric tensor at every point, positive definite permeability, every normalised eigenvector with positive eigenvalue (Gauss and Ampere: every block of amplitudes), every old content of the work arrays", "why_tests_cant": "a test checks the equations for one structure at a few points to a tolerance; it cannot show them for every structure, mode and previous state of the work arrays", "anchors": ["mpb/fields.c: get_dfield, get_hfield, get_bfield, get_efield", "src/maxwell/maxwell_op.c: maxwell_compute_d_from_H, maxwell_compute_h_from_H, maxwell_compute_H_from_B, maxwell_operator"]}
{"id": "C111", "title": "The inversion-symmetric program computes the same as the general one", "statement": "For a structure with inversion symmetry (the tensor at the opposite grid point is the complex conjugate, the same for real materials), the program for inversion-symmetric structures (mpbi: real amplitudes, real-to-complex transforms, half of the tensors stored, padded rows) agrees with the general program mpb: its Maxwell operator and inverse-permeability operator applied to any block of real vectors give exactly the numbers the general operators give, they fail to return in the same cases, real amplitudes are a mode of one exactly if they are a mode of the other, the real and imaginary parts of every mode of mpb are zero or modes of mpbi, and for every bound on the frequency both have the same number of independent modes. The B, H, D and E fields that get-bfield, get-hfield, get-dfield and get-efield of mpbi load are, at every point it stores, those of mpb, the values at the mirror points being the conjugates, and compute-field-energy (for E, the loop of compute-field-squared) gives the same list in both. The energy densities it leaves are at every stored point those of mpb, equal at mirror points. get-poynting gives at every stored point the vector of mpb, and the real part at the mirror point is the same. The projections on a parity, and at k = 0 the constant bands and the removal of the constant part, give the same amplitudes, and compute-zparities and compute-yparities the same numbers. compute-group-velocities, compute-group-velocity-component and compute-1-group-velocity-component return the same numbers in both and leave the same amplitudes. The four preconditioners give the same numbers for the same real amplitudes.", "quantifier": "all grids in one, two or three dimensions, odd or even, all lattices, wavevectors, tensors with inversion symmetry (real or complex Hermitian, with or without permeability), block sizes, numbers of bands per transform, contents of buffers, padding and output arrays before the call", "why_tests_cant": "The two programs are different binaries with different memory layouts; a test compares a few structures to a tolerance, while an index that is wrong only for odd grids or for bands of a second block shows up only there.", "anchors": ["src/maxwell/maxwell_op.c: maxwell_operator, maxwell_muinv_operator, maxwell_compute_fft, maxwell_compute_d_from_H, maxwell_compute_H_from_e, maxwell_compute_h_from_H, maxwell_compute_H_from_B, maxwell_compute_e_from_d_", "src/maxwell/maxwell.c: create_maxwell_data", "src/maxwell/xyz_loop.h: LOOP_XYZ", "mpb/fields.c: get_dfield, get_hfield, get_bfield, compute_field_energy", "mpb/mpb.c: compute_group_velocity_component, compute_1_group_velocity_component; src/maxwell/maxwell_op.c: maxwell_ucross_op", "src/maxwell/maxwell_pre.c: maxwell_preconditioner, maxwell_preconditioner2, maxwell_target_preconditioner, maxwell_target_preconditioner2", "mpb/fields.c: get_efield, compute_field_squared; mpb/mpb.scm.in: get-poynting; src/maxwell/maxwell_constraints.c: maxwell_parity_constraint, maxwell_zparity, maxwell_yparity, maxwell_zero_k_set_const_bands, maxwell_zero_k_constraint"]}
{"id": "C112", "title": "Energy fractions are the logarithmic sensitivities of the frequency", "statement": "Multiply by s the permittivity at the grid points whose dielectric constant lies in a range, or inside a list of objects. For a nondegenerate band the frequency is a differentiable function of s at 1, and its derivative is -omega/2 times the number returned by compute-energy-in-dielectric, respectively compute-energy-in-objects, after get-dfield and compute-field-energy. The same holds for the permeability with get-bfield. More generally, for any differentiable change of the tensors, the derivative of omega^2 is omega^2 times the integral of D* (1/eps)' D + B* (1/mu)' B over the loaded fields.", "quantifier": "all grids, lattices, wavevectors, positive definite permeabilities, Hermitian inverse permittivities, regions, object lists, band numbers (counted from below) whose mode is nondegenerate and of positive frequency, volumes; general (complex) build, one process", "why_tests_cant": "a derivative compared with finite differences for sample structures says nothing about other structures, and degenerate crossings make finite differences unreliable", "anchors": ["mpb/fields.c:compute_energy_in_dielectric", "mpb/fields.c:compute_energy_in_object_list", "mpb/fields.c:get_dfield", "mpb/fields.c:get_bfield", "mpb/fields.c:compute_field_energy", "src/maxwell/maxwell_op.c:maxwell_operator"]}
{"id": "C113", "title": "In two dimensions the TE and TM bands together are all the bands", "statement": "For a two-dimensional structure (one grid point along z, third lattice vector along z, wavevector in the plane, tensors that do not mix z with x and y) the constraint applied by run-te keeps a field unchanged exactly if its magnetic field is along z everywhere, that of run-tm exactly if its magnetic field lies in the plane. Every mode is the sum of a TE and a TM part, each of which is zero or itself a mode of the same frequency, and the number of independent modes of the plain run up to any frequency is the number of TE modes plus the number of TM modes: the bands of run are the bands of run-te and run-tm merged, with their multiplicities. The TE bands depend only on the in-plane entries of the inverse permittivity and the zz entry of the inverse permeability, the TM bands only on the zz entry of the first and the in-plane entries of the second.", "quantifier": "all two-dimensional problems (lattice, grid, in-plane wavevector, permittivity and permeability tensors), all frequencies, all numbers of bands", "why_tests_cant": "Tests compare TE, TM and plain runs on a few structures; that no band is lost or counted twice, with degeneracies between the two polarizations, must hold for every structure and wavevector.", "anchors": ["src/maxwell/maxwell_constraints.c: maxwell_zparity_constraint, maxwell_parity_constraint", "src/maxwell/maxwell.c: update_maxwell_data_k", "src/maxwell/maxwell_op.c: maxwell_operator", "mpb/mpb.scm.in: run-te, run-tm"]}
{"id": "C114", "title": "Overlaps of stored modes: closed paths do not depend on the solver's choice of modes", "statement": "dot-eigenvectors returns, in a new matrix, exactly the overlaps of each stored band with the magnetic field of each current band from the given band on, with or without a permeability, whatever the block size of the solver and the contents of the work arrays; neither the stored nor the current bands change. sqmatrix-mult returns the matrix product in a new matrix (matrices of different sizes are refused) and sqmatrix-eigvals returns the eigenvalues with their multiplicities and leaves its argument as it was. Consequently, for the product of overlap matrices along a closed path of wavevectors the numbers returned by sqmatrix-eigvals are the same, up to order, for every choice of phases and of orthonormal combinations of the modes at the points of the path.", "quantifier": "all blocks of stored and current bands, all start bands, block sizes, work-array contents; all paths and all unitary changes of the modes at each point", "why_tests_cant": "The phases and the combinations within degenerate bands returned by the solver are arbitrary; tests see one choice and few block sizes.", "anchors": ["mpb/matrix-smob.c: dot_eigenvectors, sqmatrix_mult, sqmatrix_eigvals, sqmatrix2scm", "src/matrices/evectmatrix.c: evectmatrix_XtY_slice2, evectmatrix_XtY_slice", "src/matrices/sqmatrix.c: sqmatrix_eigenvalues, sqmatrix_AeBC"]}
{"id": "C115", "title": "The bands of a uniform medium are exact, and bound the bands of every structure", "statement": "In a uniform medium of permittivity e and permeability u, at every resolution and wavevector, the frequencies are exactly |k+G|/sqrt(e u), each twice, one pair for every planewave kept by the grid: there are n independent modes up to a frequency w exactly if at least n/2 of the kept planewaves have |k+G| <= sqrt(e u) w. For any structure whose permittivity lies between e1 and e2 and whose permeability lies between u1 and u2 (as tensors, at every grid point), the b-th band lies between the b-th band of the uniform medium (e2, u2) and that of (e1, u1) on the same grid.", "quantifier": "all grids, lattices, wavevectors, scalar constants, structures with Hermitian tensors within the bounds, all frequencies and band numbers", "why_tests_cant": "Tests compare a few bands of an empty cell with the folded light line; exactness for every grid (including the uneven set of planewaves of odd sizes), wavevector and multiplicity, and the bounds for every structure, are universal statements.", "anchors": ["src/maxwell/maxwell.c: update_maxwell_data_k", "src/maxwell/maxwell_op.c: maxwell_operator, maxwell_muinv_operator", "mpb/mpb.c: solve_kpoint"]}
{"id": "C116", "title": "Inverses and generalised eigenvectors of Hermitian matrices", "statement": "sqmatrix_invert of a Hermitian matrix returns 1 exactly if the matrix is positive definite (with the flag positive_definite) or exactly if it is regular (without the flag); when it returns 1 the matrix holds its inverse, and nothing else but the scratch matrix has changed. sqmatrix_gen_eigensolve with a positive definite metric B leaves eigenvectors of U x = lambda B x, normalised with B, and the eigenvalues in ascending order; as documented, U = adjoint(U') D U'. With a metric that is not positive definite it stops the program.", "quantifier": "all sizes, all Hermitian matrices and metrics, all work matrices, and any LAPACK that keeps its documented promises on column-major arrays", "why_tests_cant": "the wrappers pass row-major matrices to column-major routines and exchange 'U' and 'L'; the wrong triangle is invisible for real symmetric or diagonal matrices, which are what tests use", "anchors": ["src/matrices/blasglue.c:lapackglue_potrf", "src/matrices/blasglue.c:lapackglue_potri", "src/matrices/blasglue.c:lapackglue_hetrf", "src/matrices/blasglue.c:lapackglue_hetri", "src/matrices/blasglue.c:lapackglue_heev", "src/matrices/blasglue.c:lapackglue_hegv", "src/matrices/sqmatrix.c:sqmatrix_invert", "src/matrices/sqmatrix.c:sqmatrix_gen_eigensolve"]}
{"id": "C117", "title": "Exchanging permittivity and permeability leaves the frequencies unchanged", "statement": "For any structure of positive definite materials, the structure in which permittivity and permeability change places has the same frequencies with the same multiplicities at every wavevector; the modes correspond, the magnetic induction of a mode of the second being the electric displacement (the curl of H) of the mode of the first. Giving the materials with epsilon and mu exchanged leads to exactly this structure, whatever the averaging mesh.", "quantifier": "all grids, lattices, wavevectors (including zero), positive definite Hermitian permittivity and permeability tensors, averaging meshes, material functions", "why_tests_cant": "the two are treated by different code (epsilon inside the curls, mu as a metric and on both sides of the operator); tests compare a few frequencies for a few crystals", "anchors": ["src/maxwell/maxwell_op.c:maxwell_operator", "src/maxwell/maxwell_op.c:maxwell_muinv_operator", "src/maxwell/maxwell_op.c:maxwell_compute_H_from_B", "src/maxwell/maxwell_eps.c:set_maxwell_mu", "src/maxwell/maxwell_eps.c:set_maxwell_dielectric"]}
{"id": "C118", "title": "Matching a dielectric file leaves the best structure tried", "statement": "When (material-grids-match-epsilon-file! file tol) returns, every value of every grid is between 0 and 1 (between 0.0001 and 1 if one of the grids is combined as a product), the stored dielectric function is that of these values, nothing else has changed, the number printed is the root of the mean squared deviation of the structure as it now is, and that deviation is not larger than before the call; and it returns whenever the optimiser stops with success, whatever the values were.", "quantifier": "for every structure, list of grids, grid values, resolution, file, and every optimiser that keeps NLopt's promises, whatever points it tries and however many", "why_tests_cant": "The optimiser's path depends on the structure; a test sees one path that happens to end at its last point. That the structure left behind is the best one, not the last one tried, must hold for every path.", "anchors": ["mpb/material_grid.c: material_grids_match_epsilon_fileB, match_eps_func, material_grids_get, material_grids_set"]}
{"id": "C119", "title": "The statistics of the eigensolver are those of all k-points solved", "statement": "(display-eigensolver-stats) prints nothing before the first run; afterwards it prints the number of k-points solved by all runs of the session and the least, greatest, mean and median number of iterations per band, and the flops and time per iteration.", "quantifier": "for every history of runs, numbers of k-points and bands, iteration counts (even and odd numbers of them, repeated ones, zeros)", "why_tests_cant": "The median of an even, an odd, a one-element or a repeated list takes different branches of index arithmetic; only a proof covers every list.", "anchors": ["mpb/mpb.scm.in: display-eigensolver-stats, run-parity"]}
{"id": "C120", "title": "The option --nthread is taken from the command line", "statement": "In builds with OpenMP, every argument --nthread=N sets the number of threads (the last one counts; without one, OMP_NUM_THREADS or 1) and is taken out of the arguments, whose order is otherwise kept; an N that is not positive stops the program.", "quantifier": "for every list of arguments and every value of the variable", "why_tests_cant": "The arguments can stand in any order and number.", "anchors": ["mpb/mpb.c: ctl_start_hook"]}
{"id": "C121", "title": "Files written by several processes hold what one process would write, with x and y exchanged", "statement": "In an MPI run every output of a field goes to one file although each process holds only some rows of the grid. Whether the processes write one after the other or (with parallel HDF5) all together with their blocks arriving in any order, and whatever was in the file before, the file contains afterwards exactly the datasets one process would have written, complete, with the first two directions exchanged as documented: the points of the grid, the components of the wavevector and the lattice vectors; the Bloch phase at every point is that of the serial run. Given as epsilon-input-file it yields that exchanged array.", "quantifier": "all numbers of processes, all distributions of the rows including processes that hold nothing, all grids, vector and real scalar fields, components, wavevectors, lattices, old contents of the file and orders of arrival", "why_tests_cant": "A test uses one number of processes on one grid; wrong offsets show only for some distributions, and a race or a dataset created twice only in some order.", "anchors": ["mpb/fields.c: output_field_to_file, output_scalarfield", "src/matrixio/matrixio.c: matrixio_create, matrixio_create_dataset, write_attr, matrixio_write_real_data", "src/matrixio/fieldio.c: fieldio_write_complex_field, fieldio_write_real_vals"]}
{"id": "C122", "title": "The line minimisation ends", "statement": "Every line minimisation of an eigensolver iteration comes back after finitely many evaluations of the trace, whatever the operators, the block of bands, the search direction and the trial angle are. In general, a line minimisation ends for every function whose reported slope at the start is its derivative and is continuous there, whatever the function does elsewhere.", "quantifier": "All Hermitian operators and positive definite overlap operators, all independent blocks, directions, previous angles and tolerances; for the general statement all functions, step limits, trial steps and work-array contents.", "why_tests_cant": "A search that never ends hangs the program; whether it can happen depends on exact coincidences between the trial step, the interval and the values of the function, which a finite set of runs does not exhaust.", "anchors": ["src/util/linmin.c: linmin", "src/util/minpack2-linmin.c: dcsrch, dcstep", "src/matrices/eigensolver.c: trace_func, eigensolver_lagrange"]}
{"id": "C123", "title": "mpb-data obeys its command line and keeps files apart", "statement": "The last option of each kind counts; -m sets all three directions, -e implies -r, a dataset named with a file precedes over -d, and -o applies to the first file only. A run with several files is the same as one run per file, -o only with the first: nothing (such as the cached phase) is carried over. Only the files named, or the one given with -o, are changed. At -h, -V or a faulty option nothing is touched. No string is written beyond its array.", "quantifier": "all sequences of options, all argument lists, all file systems and file contents", "why_tests_cant": "unbounded option sequences, numbers of files and contents; static state carried between files", "anchors": ["utils/mpb-data.c:main", "utils/mpb-data.c:handle_file", "utils/mpb-data.c:add_cmplx_times_phase", "utils/mpb-data.1"]}
{"id": "C124", "title": "Transforms use the right plan, and a session's storage neither leaks nor is released twice", "statement": "Whatever problems and transforms came before, each Fourier transform of a session executes a plan that is still valid and was made for the grid of the last init-params, for the layout and direction asked for and for an array transformed in place; it stays inside its array for every batch of at most 20 bands; a layout that is among the first 32 used makes its plans only once. init-params releases the storage and the plans of the previous problem, each exactly once, so that after any session the live objects are those of the current problem: two plans for each of at most 32 layouts and at most six blocks.", "quantifier": "all sessions (any sequence of init-params, setting of mu, and transforms of any layout), any content of uninitialised memory, both the general and the inversion-symmetric build", "why_tests_cant": "a cache keyed by three numbers that outlives many solves: stale or doubly released plans appear only after particular histories, and with more than 32 layouts", "anchors": ["src/maxwell/maxwell_op.c:maxwell_compute_fft", "src/maxwell/maxwell.c:create_maxwell_data", "src/maxwell/maxwell.c:destroy_maxwell_data", "mpb/mpb.c:init_params"]}
