{
 "claims": [
  {
   "property": "C01",
   "status": "proved",
   "theorems": [
    "Mpb.Maxwell.C01_basis",
    "Mpb.Maxwell.C01_size",
    "Mpb.Maxwell.C01_divergence_free",
    "Mpb.Maxwell.C01_norms"
   ],
   "note": "for all k, G and grid sizes, over exact reals; the array of squared lengths agrees with the basis (C01_norms)"
  },
  {
   "property": "C02",
   "status": "proved",
   "theorems": [
    "Mpb.Maxwell.C02_t2c",
    "Mpb.Maxwell.C02_roundtrip",
    "Mpb.Maxwell.C02_curl_t2c",
    "Mpb.Maxwell.C02_curl_c2t",
    "Mpb.Maxwell.C02_ucross",
    "Mpb.Maxwell.C02_adjoint",
    "Mpb.Maxwell.C02_project_adjoint"
   ],
   "note": "per Fourier component, over exact reals/complexes"
  },
  {
   "property": "C03",
   "status": "proved",
   "theorems": [
    "Mpb.Maxwell.C03_inverse_curl",
    "Mpb.Maxwell.C03_inverse_curl_first",
    "Mpb.Maxwell.C03_denominator_nonzero",
    "Mpb.Maxwell.C03_diagonal"
   ],
   "note": "inverse curl on nonzero k+G, regularised denominators never zero"
  },
  {
   "property": "C04",
   "status": "proved",
   "theorems": [
    "Mpb.Maxwell.C04_bands",
    "Mpb.Maxwell.C04_muinv_bands",
    "Mpb.Maxwell.C04_ucross_bands",
    "Mpb.Maxwell.C04_hermitian_psd",
    "Mpb.Maxwell.C04_eigenvalue",
    "Mpb.Maxwell.C04_linear"
   ],
   "note": "Memory-level model of maxwell_operator over column blocks refines a per-band operator, which is Hermitian positive semidefinite when the two FFT directions are adjoint and eps_inv (mu_inv) is PSD at every point."
  },
  {
   "property": "C05",
   "status": "partial",
   "theorems": [
    "Mpb.Maxwell.C05_harmonics",
    "Mpb.Maxwell.C05_symmetric_partial",
    "Mpb.Maxwell.C05_odd_refuted"
   ],
   "note": "harmonics set characterised for all n; symmetric for even n; odd n>=3 refuted (code defect)"
  },
  {
   "property": "C06",
   "status": "proved",
   "theorems": [
    "Mpb.Maxwell.C06_roundtrip",
    "Mpb.Maxwell.C06_accepts_iff"
   ],
   "note": "serial build"
  },
  {
   "property": "C07",
   "status": "partial",
   "theorems": [
    "Mpb.Maxwell.C07_wavevector_iff",
    "Mpb.Maxwell.C07_divergence_partial",
    "Mpb.Maxwell.C07_divergence_refuted",
    "Mpb.Maxwell.C07_real_build_out_of_bounds"
   ],
   "note": "code uses a wrong kz when ky*kz != 0: refuted in general, proved otherwise"
  },
  {
   "property": "C08",
   "status": "partial",
   "theorems": [
    "Mpb.Tensor.C08_inverse",
    "Mpb.Tensor.C08_nonsingular",
    "Mpb.Tensor.C08_singular_partial",
    "Mpb.Tensor.C08_singular_refuted",
    "Mpb.Tensor.C08_real"
   ],
   "note": "Inverse exact for every non-singular tensor in both builds; singular non-diagonal tensors are reported. The error report is false for singular diagonal tensors (refuted: they are divided by zero unchecked)."
  },
  {
   "property": "C09",
   "status": "proved",
   "theorems": [
    "Mpb.Tensor.C09_positive_definite",
    "Mpb.Tensor.C09_positive_definite_real",
    "Mpb.Tensor.C09_real_vectors",
    "Mpb.Tensor.C09_check_accepts",
    "Mpb.Tensor.C09_check_codes"
   ],
   "note": "Sylvester criterion both ways for Hermitian and real tensors; return codes of check_maxwell_dielectric characterised."
  },
  {
   "property": "C10",
   "status": "proved",
   "theorems": [
    "Mpb.Tensor.C10_rotation_matrix",
    "Mpb.Tensor.C10_rotate",
    "Mpb.Tensor.C10_round_trip",
    "Mpb.Tensor.C10_posDef",
    "Mpb.Tensor.C10_real"
   ],
   "note": "In-place safe congruence, orthogonality for all unit normals, round trip."
  },
  {
   "property": "C100",
   "status": "proved",
   "theorems": [
    "Mpb.MatGrid.C100_merge"
   ],
   "note": "Matching compares only the dielectric constants: two grids with different permeabilities are merged for the permeability too."
  },
  {
   "property": "C101",
   "status": "partial",
   "theorems": [
    "Mpb.Medium.C101_topmost",
    "Mpb.Medium.C101_nothing",
    "Mpb.Medium.C101_outside",
    "Mpb.Medium.C101_function_partial",
    "Mpb.Medium.C101_grid",
    "Mpb.Medium.C101_function_grid_refuted",
    "Mpb.Medium.C101_default_function_grid_refuted"
   ],
   "note": "Proved for media, tensors, grids, files, holes, and functions whose value is not a grid. False of the code for material functions whose value is a material grid: undefined behaviour in an object, and the grid's values ignored outside the objects."
  },
  {
   "property": "C102",
   "status": "partial",
   "theorems": [
    "Mpb.Medium.C102_permeability_partial",
    "Mpb.Medium.C102_function_refuted"
   ],
   "note": "Refuted for material functions: has_mu does not look at what they return, so that their permeability is ignored unless force-mu? is set or another material has one."
  },
  {
   "property": "C103",
   "status": "partial",
   "theorems": [
    "Mpb.Invariance.C103_reversal_partial",
    "Mpb.Invariance.C103_full_refuted",
    "Mpb.Invariance.C103_deviation_partial",
    "Mpb.Invariance.C103_shift_partial"
   ],
   "note": "The full statement is false of the code: the set of kept planewaves is not symmetric about zero (even sizes keep one side of the Nyquist wave, odd sizes a lopsided set), and it does not move with k; witnesses with two and three grid points. Proved: exact correspondence of modes at k and -k - skew, skew = 0/1/2 for size 1/even/odd. Also proved: each frequency at -k (at k + G) is at most |sigma|/sqrt(ab) (|G|/sqrt(ab)) above that at k, where a, b bound permittivity and permeability from below and sigma has coordinates skew. Missing: that the deviation of the low bands vanishes with resolution."
  },
  {
   "property": "C104",
   "status": "proved",
   "theorems": [
    "Mpb.Invariance.C104_monotone",
    "Mpb.Invariance.C104_continuous"
   ],
   "note": "Exact arithmetic. Permittivity and permeability are those stored on the grid (after smoothing); a problem without stored permeability counts as permeability 1. Modes are solutions of the operator equation, not the solver's output."
  },
  {
   "property": "C105",
   "status": "proved",
   "theorems": [
    "Mpb.Invariance.C105_slope",
    "Mpb.Invariance.C105_bands"
   ],
   "note": "Frequencies in exact arithmetic; eigenvalues of the discretised operator, not of the iterative solver."
  },
  {
   "property": "C106",
   "status": "partial",
   "theorems": [
    "Mpb.MatGrid.C106_numeric_partial",
    "Mpb.MatGrid.C106_printed_partial",
    "Mpb.MatGrid.C106_agree_partial",
    "Mpb.MatGrid.C106_half_refuted",
    "Mpb.MatGrid.C106_approx_partial",
    "Mpb.MatGrid.C106_frequencies_refuted",
    "Mpb.MatGrid.C106_stale_refuted",
    "Mpb.MatGrid.C106_index_refuted"
   ],
   "note": "Proved in the build without inversion symmetry, single process, mesh 1: every printed entry of the analytic table is the derivative, every printed entry of the numerical one the difference quotient, limit, and restoration of grids and dielectric function; approx-gradient returns the quotient and restores grids and dielectric function. Refuted by the code: the array of tensors is read beyond its end in the inversion build, frequencies are left those of the perturbed grid, the starting value is stale if the dielectric function was not recomputed, an index out of range reads and writes outside. Missing: printed decimals, several processes."
  },
  {
   "property": "C107",
   "status": "proved",
   "theorems": [
    "Mpb.Invariance.C107_modes",
    "Mpb.Invariance.C107_frequencies"
   ],
   "note": "Exact arithmetic, single process, complex (non-inversion-symmetric) build. The wavevectors of the small cell are stated exactly (Spec.foldCoord), including the whole reciprocal-lattice vector by which some of them are moved on odd grids."
  },
  {
   "property": "C108",
   "status": "partial",
   "theorems": [
    "Mpb.H5.C108_vector_file",
    "Mpb.H5.C108_scalar_file",
    "Mpb.H5.C108_reread",
    "Mpb.H5.C108_vector_attributes",
    "Mpb.H5.C108_vector_as_epsilon",
    "Mpb.H5.C108_first",
    "Mpb.H5.C108_kept",
    "Mpb.H5.C108_reopen",
    "Mpb.H5.C108_attribute",
    "Mpb.H5.C108_text",
    "Mpb.H5.C108_no_dataset_refuted",
    "Mpb.H5.C108_kind_refuted"
   ],
   "note": "Contents of the files of vector and real scalar fields, reading back and histories: proved for one process and complex scalars (the halves written with inversion symmetry are C35). False of the code: a file without any dataset is not reported, because the name found is used uninitialised (C108_no_dataset_refuted), and reading an attribute of the other kind returns a buffer that was never filled (C108_kind_refuted). Reading a vector file as epsilon-input-file takes the wavevector, which comes first (C108_vector_as_epsilon). Complex scalar fields: see C34."
  },
  {
   "property": "C109",
   "status": "partial",
   "theorems": [
    "Mpb.Flux.C109_poynting",
    "Mpb.Flux.C109_total",
    "Mpb.Flux.C109_flux",
    "Mpb.Flux.C109_energy",
    "Mpb.Flux.C109_speed",
    "Mpb.Flux.C109_negative_refuted"
   ],
   "note": "Complex build, one process, exact arithmetic. Proved for the default (positive permittivity) mode with or without permeability; refuted when negative permittivities are allowed (get-dfield divides by the stored omega^2). The bound on the group velocity is for normalised eigenvectors."
  },
  {
   "property": "C11",
   "status": "proved",
   "theorems": [
    "Mpb.Tensor.C11_posDef",
    "Mpb.Tensor.C11_equal_media",
    "Mpb.Tensor.C11_full_fill",
    "Mpb.Tensor.C11_isotropic"
   ],
   "note": "Kottke average of mean_epsilon_func after the geometry queries (fill fraction and normal are parameters)."
  },
  {
   "property": "C110",
   "status": "partial",
   "theorems": [
    "Mpb.Laws.C110_gauss",
    "Mpb.Laws.C110_ampere",
    "Mpb.Laws.C110_faraday",
    "Mpb.Laws.C110_materials",
    "Mpb.Laws.C110_h_partial",
    "Mpb.Laws.C110_orthogonal",
    "Mpb.Laws.C110_negative_refuted",
    "Mpb.Laws.C110_h_refuted"
   ],
   "note": "All equations proved except B = mu H, which the code violates: with a permeability get-hfield returns only the transverse part of mu^-1 B (C110_h_refuted); proved instead that the two have the same curl. In negative-epsilon mode Faraday's law fails too."
  },
  {
   "property": "C111",
   "status": "proved",
   "theorems": [
    "Mpb.RealBuild.C111_operator",
    "Mpb.RealBuild.C111_muinv",
    "Mpb.RealBuild.C111_modes",
    "Mpb.RealBuild.C111_parts",
    "Mpb.RealBuild.C111_bands",
    "Mpb.RealBuild.C111_fields",
    "Mpb.RealBuild.C111_energy",
    "Mpb.RealBuild.C111_velocity1",
    "Mpb.RealBuild.C111_velocities",
    "Mpb.RealBuild.C111_preconditioners",
    "Mpb.RealBuild.C111_efield",
    "Mpb.RealBuild.C111_efield_squared", "Mpb.RealBuild.C111_poynting", "Mpb.RealBuild.C111_density",
    "Mpb.RealBuild.C111_parity",
    "Mpb.RealBuild.C111_zero_k"
   ],
   "note": "Serial, FFTW 3, exact arithmetic; FFTW's transforms by their definition; structures without inversion symmetry are outside the property (the program does not check)."
  },
  {
   "property": "C112",
   "status": "proved",
   "theorems": [
    "Mpb.Perturb.C112_derivative",
    "Mpb.Perturb.C112_electric",
    "Mpb.Perturb.C112_magnetic",
    "Mpb.Perturb.C112_in_dielectric",
    "Mpb.Perturb.C112_in_objects",
    "Mpb.Perturb.C112_mu_in_objects"
   ],
   "note": "General build, one process; tensors at the grid points are multiplied (not the materials before averaging). Differentiability is proved, not assumed."
  },
  {
   "property": "C113",
   "status": "proved",
   "theorems": [
    "Mpb.Parity.C113_constraint",
    "Mpb.Parity.C113_split",
    "Mpb.Parity.C113_union",
    "Mpb.Parity.C113_te_blind",
    "Mpb.Parity.C113_tm_blind"
   ],
   "note": "Exact modes of the discretised operators (IsMode of the modelled maxwell_operator); whether the iterative solver reaches them is the subject of C74-C76, not of this claim."
  },
  {
   "property": "C114",
   "status": "partial",
   "theorems": [
    "Mpb.Mat.C114_overlap",
    "Mpb.Mat.C114_field",
    "Mpb.Mat.C114_mult",
    "Mpb.Mat.C114_eigvals",
    "Mpb.Mat.C114_closed_path",
    "Mpb.Mat.C114_start_refuted"
   ],
   "note": "Band numbers below 1 are not refused by dot-eigenvectors with a permeability (C114_start_refuted): the overlap theorem is for start bands from 1 on and num-bands not above the number of computed bands. geev enters through a contract (GeevContract); the field contract is met by the modelled maxwell_compute_H_from_B (C114_field)."
  },
  {
   "property": "C115",
   "status": "proved",
   "theorems": [
    "Mpb.Invariance.C115_empty",
    "Mpb.Invariance.C115_between"
   ],
   "note": "Exact modes of the discretised operator; complex serial build. The first excludes fft batch size 0 and degenerate lattices only."
  },
  {
   "property": "C116",
   "status": "partial",
   "theorems": [
    "Mpb.Mat.C116_invert",
    "Mpb.Mat.C116_scratch",
    "Mpb.Mat.C116_gen_eigensolve",
    "Mpb.Mat.C116_decomposition",
    "Mpb.Mat.C116_eigensolve",
    "Mpb.Mat.C116_documented_refuted"
   ],
   "note": "Everything but the documented identity, which is refuted when there is a metric (the correct identity is C116_decomposition). Exact arithmetic; the real work array and the leak of ipiv on failure are not modelled. LAPACK's promises are hypotheses, met by a one-by-one instance."
  },
  {
   "property": "C117",
   "status": "proved",
   "theorems": [
    "Mpb.Invariance.C117_frequencies",
    "Mpb.Invariance.C117_fields",
    "Mpb.Invariance.C117_setup"
   ],
   "note": "Complex build, one process, exact arithmetic. Frequencies counted with multiplicity (ModesUpTo), fields for non-zero frequencies, set-up for every mesh and all material functions."
  },
  {
   "property": "C118",
   "status": "partial",
   "theorems": [
    "Mpb.MatGrid.C118_result_partial",
    "Mpb.MatGrid.C118_ends",
    "Mpb.MatGrid.C118_above_refuted",
    "Mpb.MatGrid.C118_uprod_refuted"
   ],
   "note": "The command as a whole with NLopt as a parameter constrained by its documented promises; serial builds; pixels as in C87 (no averaging mesh). False for values above 1 (the command fails) and for products with values below 0.0001 (the deviation can grow)."
  },
  {
   "property": "C119",
   "status": "proved",
   "theorems": [
    "Mpb.Run.C119_stats",
    "Mpb.Run.C119_collected"
   ],
   "note": "Exact arithmetic; the timing itself is an arbitrary number."
  },
  {
   "property": "C12",
   "status": "partial",
   "theorems": [
    "Mpb.Tensor.C12_mesh_partial",
    "Mpb.Tensor.C12_symmetric",
    "Mpb.Tensor.C12_inside",
    "Mpb.Tensor.C12_refuted"
   ],
   "note": "Exact midpoints and matching normalisation for mesh sizes >= 1; the documented clamping of sizes < 1 is refuted (loops run with the unclamped size)."
  },
  {
   "property": "C120",
   "status": "partial",
   "theorems": [
    "Mpb.Util.C120_nthread_partial",
    "Mpb.Util.C120_adjacent_refuted"
   ],
   "note": "Proved when no two such options stand next to each other; false otherwise: the second is overlooked and left in the arguments."
  },
  {
   "property": "C121",
   "status": "proved",
   "theorems": [
    "Mpb.H5.C121_vector_in_turn",
    "Mpb.H5.C121_scalar_in_turn",
    "Mpb.H5.C121_vector_together",
    "Mpb.H5.C121_scalar_together",
    "Mpb.H5.C121_reread"
   ],
   "note": "Complex build. Vector fields and real scalar fields (epsilon with its tensors); complex scalar fields are written with an out-of-bounds phase loop (C34) and left out. That the loaded fields are the parts assumed is C94_fields. HDF5, rank order of the critical sections (C29) and replicated settings are assumptions of the model."
  },
  {
   "property": "C122",
   "status": "partial",
   "theorems": [
    "Mpb.Linmin.C122_linmin_partial",
    "Mpb.Solver.C122_eigensolver_partial",
    "Mpb.Eig.C122_run_partial",
    "Mpb.Linmin.C122_zero_refuted",
    "Mpb.Linmin.C122_zero_guess",
    "Mpb.Linmin.C122_limit_refuted",
    "Mpb.Solver.C122_previous_angle_refuted"
   ],
   "note": "Proved: the search ends for every function with a correct and continuous slope at the start, a nonzero trial step and a value at the step limit above the line of sufficient decrease; hence every exact line minimisation of the eigensolver ends if the previous angle is not zero; hence all line searches of a run with exact line minimisations, a positive semidefinite operator and a positive tolerance end (the previous angle is zero only when the run converges first). Refuted: trial step zero (previous angle 0, d2E <= 0) and a low function with a slope window at the step limit make it run for ever. An end may be a NaN (C24_nan_refuted). Missing: runs with approximate line minimisations. Exact reals."
  },
  {
   "property": "C123",
   "status": "partial",
   "theorems": [
    "Mpb.MpbData.C123_single_partial",
    "Mpb.MpbData.C123_files",
    "Mpb.MpbData.C123_exit",
    "Mpb.MpbData.C123_touches",
    "Mpb.MpbData.C123_long_name_refuted"
   ],
   "note": "Dataset names of more than 297 characters overflow a fixed array (refuted); within that bound C123_single_partial, and without restriction C123_files, C123_exit and C123_touches. getopt, atof and sscanf are external; HDF5 is assumed to refuse creating a file that is open."
  },
  {
   "property": "C124",
   "status": "proved",
   "theorems": [
    "Mpb.Plans.C124_transform",
    "Mpb.Plans.C124_storage",
    "Mpb.Plans.C124_reuse",
    "Mpb.Plans.C124_fits"
   ],
   "note": "Serial builds with FFTW 3, general and inversion-symmetric; MPI and FFTW 2 are not modelled, nor are failures of allocation and planning (the program stops). Batches of more than 20 bands, which some callers make, are the subject of C65."
  },
  {
   "property": "C13",
   "status": "proved",
   "theorems": [
    "Mpb.Tensor.C13_set_mu"
   ],
   "note": "Full set_maxwell_dielectric loop under the pointer swap; serial complex build."
  },
  {
   "property": "C14",
   "status": "proved",
   "theorems": [
    "Mpb.Parity.C14_z",
    "Mpb.Parity.C14_y",
    "Mpb.Parity.C14_projection",
    "Mpb.Parity.C14_combined",
    "Mpb.Parity.C14_sectors"
   ],
   "note": "Serial build. Bands of any number, any grid."
  },
  {
   "property": "C15",
   "status": "partial",
   "theorems": [
    "Mpb.Parity.C15_z_value_partial",
    "Mpb.Parity.C15_z_sector",
    "Mpb.Parity.C15_z_refuted",
    "Mpb.Parity.C15_y_value_partial",
    "Mpb.Parity.C15_y_sector"
   ],
   "note": "The code normalises by twice the norm of the visited half, so the reported value is the expectation only for sector states; refuted in general with a witness."
  },
  {
   "property": "C16",
   "status": "proved",
   "theorems": [
    "Mpb.Parity.C16_flags",
    "Mpb.Parity.C16_consistent",
    "Mpb.Parity.C16_set_parity",
    "Mpb.Parity.C16_history",
    "Mpb.Parity.C16_reselect",
    "Mpb.Parity.C16_solve"
   ],
   "note": "History theorem over init-params/set-parity/solve-kpoint."
  },
  {
   "property": "C17",
   "status": "partial",
   "theorems": [
    "Mpb.Parity.C17_count",
    "Mpb.Parity.C17_set",
    "Mpb.Parity.C17_orthonormal",
    "Mpb.Parity.C17_kernel_partial",
    "Mpb.Parity.C17_kernel_mu_refuted",
    "Mpb.Parity.C17_constraint",
    "Mpb.Parity.C17_constraint_span"
   ],
   "note": "Zero-frequency claim refuted for position-dependent mu; everything else proved."
  },
  {
   "property": "C18",
   "status": "proved",
   "theorems": [
    "Mpb.Mat.C18_copy",
    "Mpb.Mat.C18_copy_slice",
    "Mpb.Mat.C18_copy_slice_reject",
    "Mpb.Mat.C18_resize",
    "Mpb.Mat.C18_get",
    "Mpb.Mat.C18_set",
    "Mpb.Mat.C18_get_set"
   ],
   "note": "Exact complex arithmetic; matrices in distinct arrays for slice copies."
  },
  {
   "property": "C19",
   "status": "proved",
   "theorems": [
    "Mpb.Solver.C19_solve_kpoint"
   ],
   "note": "Memory-level model of the block loop; eigensolver, mu operator and constant-band filler are parameters with the contract EnvOK."
  },
  {
   "property": "C20",
   "status": "partial",
   "theorems": [
    "Mpb.Solver.C20_block_size",
    "Mpb.Solver.C20_zero_bands_refuted"
   ],
   "note": "Proved for num-bands >= 1; for num-bands = 0 with a negative block size (the default) the code divides by zero (refuted)."
  },
  {
   "property": "C21",
   "status": "proved",
   "theorems": [
    "Mpb.Solver.C21_deflation",
    "Mpb.Solver.C21_commutes",
    "Mpb.Solver.C21_chain_order",
    "Mpb.Solver.C21_chain_all"
   ],
   "note": "Memory-level model."
  },
  {
   "property": "C22",
   "status": "partial",
   "theorems": [
    "Mpb.Mat.C22_upper2full",
    "Mpb.Mat.C22_symmetrize",
    "Mpb.Mat.C22_trace",
    "Mpb.Mat.C22_traceAtB",
    "Mpb.Mat.C22_AeBC",
    "Mpb.Mat.C22_ApaBC",
    "Mpb.Mat.C22_ApaB",
    "Mpb.Mat.C22_aApbB_partial",
    "Mpb.Mat.C22_aApbB_alias",
    "Mpb.Mat.C22_aApbB_alias_refuted",
    "Mpb.Mat.C22_copy",
    "Mpb.Mat.C22_invert",
    "Mpb.Mat.C22_eigensolve",
    "Mpb.Mat.C22_sqrt",
    "Mpb.Mat.C22_resize",
    "Mpb.Mat.C22_ref_set",
    "Mpb.Mat.C22_diagm"
   ],
   "note": "The documented aliasing 'A and B may be equal' of sqmatrix_aApbB is false of the code (refuted: 2A + 1A gives 4A); everything else is proved. LAPACK routines are assumptions (InvContract, HeevContract)."
  },
  {
   "property": "C23",
   "status": "partial",
   "theorems": [
    "Mpb.Mat.C23_gemm_partial",
    "Mpb.Mat.C23_gemm_empty_refuted",
    "Mpb.Mat.C23_gemm_alias",
    "Mpb.Mat.C23_herk_partial",
    "Mpb.Mat.C23_herk_empty_refuted"
   ],
   "note": "With k = 0 the code zeroes C instead of computing b*C (refuted); all other sizes proved, and k = 0 with b = 0. No caller in mpb reaches the bad case."
  },
  {
   "property": "C24",
   "status": "partial",
   "theorems": [
    "Mpb.Linmin.C24_save_restore",
    "Mpb.Linmin.C24_start",
    "Mpb.Linmin.C24_converged",
    "Mpb.Linmin.C24_limits_partial",
    "Mpb.Linmin.C24_limits",
    "Mpb.Linmin.C24_best",
    "Mpb.Linmin.C24_linmin",
    "Mpb.Linmin.C24_failure",
    "Mpb.Linmin.C24_eigensolver",
    "Mpb.Linmin.C24_limits_refuted",
    "Mpb.Linmin.C24_nan_refuted"
   ],
   "note": "Convergence iff strong Wolfe, ERROR iff invalid inputs, state round trip, step limits for stpmin = 0 (the eigensolver's use), never worse than the start, linmin with both directions. Refuted: with stpmin > 0 a step 0 < stpmin can be requested; a NaN can be computed for a polynomial objective with the eigensolver's own parameters. Termination: see C122."
  },
  {
   "property": "C25",
   "status": "proved",
   "theorems": [
    "Mpb.Linmin.C25_step"
   ],
   "note": "Under the documented precondition of dcstep; real arithmetic exact."
  },
  {
   "property": "C26",
   "status": "partial",
   "theorems": [
    "Mpb.Solver.C26_trace_func",
    "Mpb.Solver.C26_defined_nearby",
    "Mpb.Solver.C26_newton",
    "Mpb.Solver.C26_start",
    "Mpb.Solver.C26_step",
    "Mpb.Solver.C26_expansion",
    "Mpb.Solver.C26_newton_lagrange_refuted",
    "Mpb.Solver.C26_fallback_refuted"
   ],
   "note": "The derivative is exact for all angles (C26_trace_func); the second derivative used by the Newton guess is wrong with a Lagrange term, and the fallback of the approximate line minimisation is refuted. When the inversion of the overlap gives up, the expansion used instead is the inverse up to second order (C26_expansion)."
  },
  {
   "property": "C27",
   "status": "partial",
   "theorems": [
    "Mpb.Util.C27_divide_partial",
    "Mpb.Util.C27_rejects",
    "Mpb.Util.C27_bound",
    "Mpb.Util.C27_overflow_refuted",
    "Mpb.Util.C27_serial_refuted"
   ],
   "note": "Groups are contiguous, ordered and cover all processes when the products fit in int; overflow and the inverted check of the serial build refute the unrestricted claim."
  },
  {
   "property": "C28",
   "status": "partial",
   "theorems": [
    "Mpb.Util.C28_no_double_free",
    "Mpb.Util.C28_brackets_partial",
    "Mpb.Util.C28_nested_refuted",
    "Mpb.Util.C28_divide_inside_refuted"
   ],
   "note": "Balanced, un-nested brackets restore the communicator; nested brackets and dividing inside a bracket do not."
  },
  {
   "property": "C29",
   "status": "partial",
   "theorems": [
    "Mpb.Util.C29_order",
    "Mpb.Util.C29_exclusive",
    "Mpb.Util.C29_progress",
    "Mpb.Util.C29_completes",
    "Mpb.Util.C29_two_sections_refuted"
   ],
   "note": "One critical section: exclusion, order, progress for every schedule; two consecutive sections may overlap."
  },
  {
   "property": "C30",
   "status": "partial",
   "theorems": [
    "Mpb.Util.C30_accounting",
    "Mpb.Util.C30_errors",
    "Mpb.Util.C30_unnoticed_refuted"
   ],
   "note": "Accounting and detection of the checked errors; some overruns go unnoticed."
  },
  {
   "property": "C31",
   "status": "proved",
   "theorems": [
    "Mpb.IO.C31_strided_write"
   ],
   "note": "HDF5's hyperslab transfer is the contract h5write."
  },
  {
   "property": "C32",
   "status": "proved",
   "theorems": [
    "Mpb.IO.C32_roundtrip",
    "Mpb.IO.C32_shape"
   ],
   "note": "For every distribution of rows among writers and readers."
  },
  {
   "property": "C33",
   "status": "partial",
   "theorems": [
    "Mpb.IO.C33_ends",
    "Mpb.IO.C33_suffix_partial",
    "Mpb.IO.C33_refuted"
   ],
   "note": "Holds for names in which .h5 occurs at most at the end; refuted for a.h5.h5."
  },
  {
   "property": "C34",
   "status": "partial",
   "theorems": [
    "Mpb.IO.C34_vector_partial",
    "Mpb.IO.C34_nophase_partial",
    "Mpb.IO.C34_others",
    "Mpb.IO.C34_scalar_refuted"
   ],
   "note": "Holds for vector fields and for output without wave vector; complex scalar fields with a wave vector get wrong phases."
  },
  {
   "property": "C35",
   "status": "partial",
   "theorems": [
    "Mpb.Half.C35_otherhalf",
    "Mpb.Half.C35_otherhalf_mpi_partial",
    "Mpb.Half.C35_once",
    "Mpb.Half.C35_vector",
    "Mpb.Half.C35_scalar",
    "Mpb.Half.C35_vector_mpi_partial",
    "Mpb.Half.C35_scalar_mpi_partial",
    "Mpb.Half.C35_idle_refuted"
   ],
   "note": "Proved for serial runs and for parallel runs in which every process holds a row of the grid. With a process that holds none the output of vector fields (in three dimensions also of scalar fields) kills it (refuted)."
  },
  {
   "property": "C36",
   "status": "proved",
   "theorems": [
    "Mpb.MpbData.C36_real",
    "Mpb.MpbData.C37_complex",
    "Mpb.MpbData.C36_convex",
    "Mpb.MpbData.C36_exact",
    "Mpb.MpbData.C36_identity"
   ],
   "note": "exact reals; map_data for real and complex data, both options"
  },
  {
   "property": "C37",
   "status": "proved",
   "theorems": [
    "Mpb.MpbData.C37_complex",
    "Mpb.MpbData.C37_periods",
    "Mpb.MpbData.C37_history",
    "Mpb.MpbData.C37_independent"
   ],
   "note": "static phase cache modelled; every history of calls"
  },
  {
   "property": "C38",
   "status": "partial",
   "theorems": [
    "Mpb.MpbData.C38_rectify",
    "Mpb.MpbData.C38_direction_partial",
    "Mpb.MpbData.C38_direction_refuted",
    "Mpb.MpbData.C38_plane_refuted",
    "Mpb.MpbData.C38_covers",
    "Mpb.MpbData.C38_volume",
    "Mpb.MpbData.C38_components"
   ],
   "note": "holds for -r on every non-degenerate lattice; fails for -e with directions on the far side (axis reversed) or in the plane of c1-c0,c2-c0 (division by zero)"
  },
  {
   "property": "C39",
   "status": "proved",
   "theorems": [
    "Mpb.MpbData.C39_split"
   ],
   "note": ""
  },
  {
   "property": "C40",
   "status": "proved",
   "theorems": [
    "Mpb.Field.C40_interp",
    "Mpb.Field.C40_interp_mpi",
    "Mpb.Field.C40_complex",
    "Mpb.Field.C40_complex_mpi",
    "Mpb.Field.C40_exact",
    "Mpb.Field.C40_convex",
    "Mpb.Field.C40_periodic",
    "Mpb.Field.C40_field",
    "Mpb.Field.C40_bloch",
    "Mpb.Field.C40_scalar"
   ],
   "note": "exact reals; serial and MPI, complex and half-stored"
  },
  {
   "property": "C41",
   "status": "partial",
   "theorems": [
    "Mpb.Field.C41_flat",
    "Mpb.Field.C41_flat_mpi",
    "Mpb.Field.C41_dielectric",
    "Mpb.Field.C41_averages",
    "Mpb.Field.C41_layout",
    "Mpb.Field.C41_integrate_partial",
    "Mpb.Field.C41_integrate_mpi_partial",
    "Mpb.Field.C41_xyz_partial",
    "Mpb.Field.C41_xyz_mpi_partial",
    "Mpb.Field.C41_objects_partial",
    "Mpb.Field.C41_field_integral_partial",
    "Mpb.Field.C41_energy_integral_partial",
    "Mpb.Field.C41_objects_refuted",
    "Mpb.Field.C41_integrate_refuted"
   ],
   "note": "Energies, dielectric energy fractions and epsilon averages: proved in every build, serial and MPI. integrate-fields: proved except for complex scalar fields in the inversion-symmetric build, where it is refuted (mirror value not conjugated). Energy in objects and field/energy integrals: proved in the complex build, serial and MPI; refuted in the inversion-symmetric build, where the loop tests uninitialised counters."
  },
  {
   "property": "C42",
   "status": "proved",
   "theorems": [
    "Mpb.Field.C42_in_place",
    "Mpb.Field.C42_total"
   ],
   "note": "Every density value, the total and the component sums are those of the original field although it is overwritten; totals are whole-cell sums."
  },
  {
   "property": "C43",
   "status": "partial",
   "theorems": [
    "Mpb.Field.FixPhase.C43_unit",
    "Mpb.Field.FixPhase.C43_maximal",
    "Mpb.Field.FixPhase.C43_canonical_partial",
    "Mpb.Field.FixPhase.C43_canonical_inv_partial",
    "Mpb.Field.FixPhase.C43_eigenvector",
    "Mpb.Field.FixPhase.C43_no_band_refuted",
    "Mpb.Field.FixPhase.C43_canonical_refuted",
    "Mpb.Field.FixPhase.C43_mpi_refuted"
   ],
   "note": "Unit phase, maximal real part and eigenvector update hold for all fields; canonical result proved for a serial run when the squares do not sum to zero (re differs from im somewhere in the inversion build). Refuted otherwise: sum of squares zero, MPI index collision, field without a band."
  },
  {
   "property": "C44",
   "status": "partial",
   "theorems": [
    "Mpb.Session.C44_refines_partial",
    "Mpb.Session.C44_squared_refuted",
    "Mpb.Session.C44_squared_scalar_refuted",
    "Mpb.Session.C44_efield_refuted",
    "Mpb.Session.C44_divergence_refuted",
    "Mpb.Session.C44_load_band_refuted",
    "Mpb.Session.C44_load_crash_refuted",
    "Mpb.Session.C44_nonbloch_refuted",
    "Mpb.Session.C44_groupvel_refuted",
    "Mpb.Session.C44_dot_refuted",
    "Mpb.Session.C44_numbands_refuted",
    "Mpb.Session.C44_kindex_refuted",
    "Mpb.Session.C44_symmetry_refuted",
    "Mpb.Session.C44_velocity_refuted",
    "Mpb.Session.C44_dominant_refuted",
    "Mpb.Session.C44_epspoint_refuted"
   ],
   "note": "Proved for every history in which no command is used in one of the listed states (Allowed); each excluded use is refuted with a concrete history. Missing: multi-process schedules. compute-symmetry, compute-1-group-velocity, get-dominant-planewave and get-epsilon-point are covered, with the uses for which they misbehave refuted."
  },
  {
   "property": "C45",
   "status": "partial",
   "theorems": [
    "Mpb.Workspace.C45_sizes_partial",
    "Mpb.Workspace.C45_same_mu_partial",
    "Mpb.Workspace.C45_new_size_partial",
    "Mpb.Workspace.C45_mu_refuted",
    "Mpb.Workspace.C45_overflow_refuted"
   ],
   "note": "False as stated: adding a permeability between two calls keeps a work space that is one matrix short, and nwork>=10 with a permeability writes past the array. Proved for all histories: all sizes, no leak or double free; exact fit if mu usage does not change or sizes change."
  },
  {
   "property": "C46",
   "status": "proved",
   "theorems": [
    "Mpb.Velocity.C46_axes",
    "Mpb.Velocity.C46_direction",
    "Mpb.Velocity.C46_reciprocal",
    "Mpb.Velocity.C46_lattice"
   ],
   "note": "for every nondegenerate lattice; numbers exact"
  },
  {
   "property": "C47",
   "status": "partial",
   "theorems": [
    "Mpb.Field.C47_b",
    "Mpb.Field.C47_h",
    "Mpb.Field.C47_hb",
    "Mpb.Field.C47_d_partial",
    "Mpb.Field.C47_negative",
    "Mpb.Field.C47_negative_refuted",
    "Mpb.Dist.C47_parallel_partial",
    "Mpb.RealBuild.C47_inversion_b",
    "Mpb.RealBuild.C47_inversion_h",
    "Mpb.RealBuild.C47_inversion_d_partial"
   ],
   "note": "B and H: unit energy in every mode. D: unit energy for eigenvalue > 0 in the normal mode; refuted in negative-epsilon mode, where the energy is 1/omega^2 (proved). Zero frequency excluded (the scale is arbitrary there). The same in a run on any number of processes (D and B) and in the build for inversion-symmetric structures (B, H, D; serial). General build: FFT matrices are parameters with the Parseval property; inversion build: FFTW's transforms by definition."
  },
  {
   "property": "C48",
   "status": "partial",
   "theorems": [
    "Mpb.Names.C48_distinct_partial",
    "Mpb.Names.C48_buffers",
    "Mpb.Names.C48_loaded_refuted",
    "Mpb.Names.C48_word",
    "Mpb.Names.C48_described",
    "Mpb.Names.C48_loaded_word"
   ],
   "note": "Buffers always suffice; names are distinct for all fields obtained from the solver. Fields copied into variables and loaded again lose their band number (proved), so two of them can be written to one file."
  },
  {
   "property": "C49",
   "status": "partial",
   "theorems": [
    "Mpb.MatGrid.C49_interp_partial",
    "Mpb.MatGrid.C49_range",
    "Mpb.MatGrid.C49_pixel",
    "Mpb.MatGrid.C49_beyond_refuted",
    "Mpb.MatGrid.C49_opposite_refuted",
    "Mpb.MatGrid.C49_example_refuted"
   ],
   "note": "Proved for coordinates below 1 (any mirrored negative range stated in the theorem). Refuted beyond 1: the second neighbour is out of bounds or comes from the opposite face."
  },
  {
   "property": "C50",
   "status": "partial",
   "theorems": [
    "Mpb.MatGrid.C50_weights",
    "Mpb.MatGrid.C50_gradient_partial",
    "Mpb.MatGrid.C50_nothing_refuted",
    "Mpb.MatGrid.C50_product_zero_refuted"
   ],
   "note": "Exact derivative at every differentiable configuration with non-zero layer values; refuted where an object without material sits on the default grid, and for products with a zero layer."
  },
  {
   "property": "C51",
   "status": "proved",
   "theorems": [
    "Mpb.MatGrid.C51_enumeration",
    "Mpb.MatGrid.C51_total",
    "Mpb.MatGrid.C51_set",
    "Mpb.MatGrid.C51_set_get",
    "Mpb.MatGrid.C51_get_set"
   ],
   "note": "Assumes that distinct material grids own distinct arrays, as their constructor allocates them."
  },
  {
   "property": "C52",
   "status": "partial",
   "theorems": [
    "Mpb.MatOpt.C52_maxgap_gradient",
    "Mpb.MatOpt.C52_mindiff_partial",
    "Mpb.MatOpt.C52_history_refuted",
    "Mpb.MatOpt.C52_single_refuted",
    "Mpb.MatOpt.C52_example_refuted"
   ],
   "note": "The gap objective's gradient is exact. The TE/TM objective's gradient is right except for its last two entries, which accumulate over evaluations (refuted), and a single degree of freedom is undefined behaviour."
  },
  {
   "property": "C53",
   "status": "proved",
   "theorems": [
    "Mpb.MatOpt.C53_constraints",
    "Mpb.MatOpt.C53_total",
    "Mpb.MatOpt.C53_result"
   ],
   "note": "For every sequence of calls that starts with the objective; the solver is arbitrary and may differ from run to run."
  },
  {
   "property": "C54",
   "status": "partial",
   "theorems": [
    "Mpb.MatGrid.C54_terminates",
    "Mpb.MatGrid.C54_randomize",
    "Mpb.MatGrid.C54_mirror_partial",
    "Mpb.MatGrid.C54_mirror_refuted",
    "Mpb.MatGrid.C54_example_refuted"
   ],
   "note": "Termination, range and agreement of all processes are proved for all inputs; the mirror reflection holds for sums in [-1,1] and is refuted for sums in (1,2), which are shifted by 1 instead."
  },
  {
   "property": "C55",
   "status": "proved",
   "theorems": [
    "Mpb.Scheme.C55_chunks_concat",
    "Mpb.Scheme.C55_chunk_positions",
    "Mpb.Scheme.C55_out_of_range"
   ],
   "note": ""
  },
  {
   "property": "C56",
   "status": "proved",
   "theorems": [
    "Mpb.Scheme.C56_ranges",
    "Mpb.Scheme.C56_gaps",
    "Mpb.Scheme.C56_gap_iff",
    "Mpb.Scheme.C56_retrieve_gap"
   ],
   "note": ""
  },
  {
   "property": "C57",
   "status": "partial",
   "theorems": [
    "Mpb.Brillouin.C57_terminates",
    "Mpb.Brillouin.C57_sound",
    "Mpb.Brillouin.C57_minimal_partial",
    "Mpb.Brillouin.C57_minimal_refuted",
    "Mpb.Brillouin.C57_round"
   ],
   "note": "Termination, equivalence and local minimality for all nonsingular lattices; global minimality for all lattices with a Selling-reduced basis in {-1,0,1} coordinates (sc, bcc, fcc, hexagonal, orthorhombic ...). Global minimality for arbitrary skew lattices is false of the code: refuted with a witness."
  },
  {
   "property": "C58",
   "status": "proved",
   "theorems": [
    "Mpb.Scheme.C58_next_factor",
    "Mpb.Scheme.C58_zero_diverges",
    "Mpb.Scheme.C58_optimize_grid_size",
    "Mpb.Scheme.C58_smooth_kept",
    "Mpb.Scheme.C58_optimize_zero_diverges"
   ],
   "note": "libctl's get-grid-size is a parameter; sizes of zero make the search run for ever (stated)."
  },
  {
   "property": "C59",
   "status": "proved",
   "theorems": [
    "Mpb.FindK.C59_caches_transparent",
    "Mpb.FindK.C59_lookup_fresh"
   ],
   "note": "Eigensolver and root finder are parameters; the assumption that a run with n bands reports the first n exact bands is the hypothesis Oracle."
  },
  {
   "property": "C60",
   "status": "partial",
   "theorems": [
    "Mpb.Phase.C60_scale_eigenvector",
    "Mpb.Phase.C60_phase_consistency",
    "Mpb.Phase.C60_real_build_refuted",
    "Mpb.Phase.C60_real_build_partial"
   ],
   "note": "Phase consistency and the complex build are proved in full; the real build (mpbi) accepts purely imaginary factors and zeroes the band (refuted with witness), the part that holds is proved."
  },
  {
   "property": "C61",
   "status": "proved",
   "theorems": [
    "Mpb.Tensor.C61_positive",
    "Mpb.Tensor.C61_kottke_admissible"
   ],
   "note": "All branches of set_maxwell_dielectric."
  },
  {
   "property": "C62",
   "status": "proved",
   "theorems": [
    "Mpb.Tensor.C62_homogeneous"
   ],
   "note": "All branches of set_maxwell_dielectric, any mesh size."
  },
  {
   "property": "C63",
   "status": "partial",
   "theorems": [
    "Mpb.Parity.C63_z_partial",
    "Mpb.Parity.C63_y_partial",
    "Mpb.Parity.C63_nyquist_refuted",
    "Mpb.Parity.C63_odd_refuted",
    "Mpb.Parity.C63_split_refuted"
   ],
   "note": "Classes: hold for even sizes away from the Nyquist plane; refuted there and for odd sizes. Modes: refuted for a scalar mirror-symmetric structure of four layers (the planewave at the Nyquist wavenumber is kept with one sign only, so the operator itself is not mirror symmetric); for two-dimensional structures the TE/TM split holds exactly (C113)."
  },
  {
   "property": "C64",
   "status": "partial",
   "theorems": [
    "Mpb.Mat.C64_aXpbY_partial",
    "Mpb.Mat.C64_aXpbY_alias",
    "Mpb.Mat.C64_aXpbY_alias_refuted",
    "Mpb.Mat.C64_aXpbYS",
    "Mpb.Mat.C64_XeYS",
    "Mpb.Mat.C64_XpaYS",
    "Mpb.Mat.C64_XeYS_identity",
    "Mpb.Mat.C64_XtX",
    "Mpb.Mat.C64_XtY_slice2",
    "Mpb.Mat.C64_slice2_bounds_refuted",
    "Mpb.Mat.C64_XtY",
    "Mpb.Mat.C64_XtY_sub",
    "Mpb.Mat.C64_traceXtY",
    "Mpb.Mat.C64_XtY_diag",
    "Mpb.Mat.C64_diag_ops",
    "Mpb.Mat.C64_scale",
    "Mpb.Mat.C64_scale_range",
    "Mpb.Mat.C64_XtY_slice",
    "Mpb.Mat.C64_gemm_alias"
   ],
   "note": "False of the code: equal arguments of evectmatrix_aXpbY (documented as allowed) and the unchecked destination range of evectmatrix_XtY_slice2, both refuted; all else proved."
  },
  {
   "property": "C65",
   "status": "partial",
   "theorems": [
    "Mpb.Workspace.Fft.C65_operators",
    "Mpb.Workspace.Fft.C65_groupvel_partial",
    "Mpb.Workspace.Fft.C65_groupvel_refuted",
    "Mpb.Workspace.Fft.C65_dot_partial",
    "Mpb.Workspace.Fft.C65_dot_refuted"
   ],
   "note": "Proved for the operators always, for group velocities and overlaps without permeability or with blocks of at most 20 bands; refuted otherwise (heap overflow)."
  },
  {
   "property": "C66",
   "status": "proved",
   "theorems": [
    "Mpb.Solver.C66_ritz",
    "Mpb.Solver.C66_exact",
    "Mpb.Solver.C66_get_eigenvals"
   ],
   "note": "heev, potrf and the operator are contracts."
  },
  {
   "property": "C67",
   "status": "partial",
   "theorems": [
    "Mpb.Velocity.C67_component_partial",
    "Mpb.Velocity.C67_velocities_partial",
    "Mpb.Velocity.C67_changes_solution_refuted",
    "Mpb.Velocity.C67_repeat_refuted"
   ],
   "note": "Proved without permeability or when the bands are in more than one block. Refuted with a permeability and one block: the eigenvectors are overwritten by mu^-1 B"
  },
  {
   "property": "C68",
   "status": "partial",
   "theorems": [
    "Mpb.Eig.C68_descent",
    "Mpb.Eig.C68_approx_refuted",
    "Mpb.Eig.C68_stale_refuted",
    "Mpb.Eig.exact_run"
   ],
   "note": "Descent proved for all runs with exact line minimisation (flag, or timings that never favour the approximate one), no orthogonal preconditioner, scratch arrays not aliased with the direction. Refuted for the forced approximate line minimisation; the slope passed after a failed approximate step is wrong."
  },
  {
   "property": "C69",
   "status": "partial",
   "theorems": [
    "Mpb.Perturb.C69_gradient_partial",
    "Mpb.Velocity.C69_derivative_partial",
    "Mpb.Velocity.C69_mu_refuted"
   ],
   "note": "C69_gradient_partial: for the bands counted from below, with no assumption on how the modes change with k, the returned vector is the gradient of the frequency at every k where the mode is simple and of positive frequency. Without permeability; C69_derivative_partial covers a permeability with mu^-1 B transverse. Refuted for an anisotropic permeability. Exact numbers"
  },
  {
   "property": "C70",
   "status": "proved",
   "theorems": [
    "Mpb.MatGrid.C70_file_function",
    "Mpb.MatGrid.C70_periodic",
    "Mpb.MatGrid.C70_range"
   ],
   "note": "Exact arithmetic."
  },
  {
   "property": "C71",
   "status": "partial",
   "theorems": [
    "Mpb.MatGrid.C71_default_partial",
    "Mpb.MatGrid.C71_mirror_refuted",
    "Mpb.MatGrid.C71_example_refuted"
   ],
   "note": "Refuted by the code: the grid is evaluated at p/size in [-1/2,1/2], mirrored at 0. The partial theorem says what is computed."
  },
  {
   "property": "C72",
   "status": "proved",
   "theorems": [
    "Mpb.MatGrid.C72_load",
    "Mpb.MatGrid.C72_range",
    "Mpb.MatGrid.C72_roundtrip",
    "Mpb.MatGrid.C72_supercell",
    "Mpb.MatGrid.C72_load_short"
   ],
   "note": "HDF5 storage assumed to keep dimensions and numbers."
  },
  {
   "property": "C73",
   "status": "partial",
   "theorems": [
    "Mpb.MatOpt.C73_maxgap",
    "Mpb.MatOpt.C73_mingap_refuted",
    "Mpb.MatOpt.C73_example_refuted"
   ],
   "note": "Proved for maxgap; refuted for mingap, where every structure solves the problem."
  },
  {
   "property": "C74",
   "status": "partial",
   "theorems": [
    "Mpb.Eig.C74_result",
    "Mpb.Eig.C74_ends",
    "Mpb.Eig.C74_negative_refuted"
   ],
   "note": "All of the statement holds for runs that return; runs end or abort within 110000 iterations and restarts. Refuted part: for operators with A <= -B the convergence test can never be met, so every run aborts."
  },
  {
   "property": "C75",
   "status": "proved",
   "theorems": [
    "Mpb.Eig.C75_upper_bound",
    "Mpb.Eig.C75_solver",
    "Mpb.Eig.C75_traces"
   ],
   "note": "Exact arithmetic."
  },
  {
   "property": "C76",
   "status": "partial",
   "theorems": [
    "Mpb.Eig.C76_stationary",
    "Mpb.Eig.C76_exact_start_refuted"
   ],
   "note": "First half proved; second half refuted (exact arithmetic): a run started from an exact solution aborts."
  },
  {
   "property": "C77",
   "status": "partial",
   "theorems": [
    "Mpb.Target.C77_operator",
    "Mpb.Target.C77_eigenvalue",
    "Mpb.Target.C77_hermitian_psd",
    "Mpb.Target.C77_two_work_arrays_refuted",
    "Mpb.Target.C77_three_work_arrays",
    "Mpb.Target.C77_selected_partial",
    "Mpb.Target.C77_reported",
    "Mpb.Target.C77_nearest_refuted"
   ],
   "note": "False as documented: states are selected by |w_n^2 - w^2|, not by |w_n - w| (witness in C77_nearest_refuted), and with eigensolver-nwork 2 the operator's own check aborts the run. Proved: operator, Hermiticity, eigenvalues, selection in squared frequency."
  },
  {
   "property": "C78",
   "status": "proved",
   "theorems": [
    "Mpb.Target.C78_downhill",
    "Mpb.Target.C78_simple",
    "Mpb.Target.C78_target_simple",
    "Mpb.Target.C78_fancy",
    "Mpb.Target.C78_target_fancy"
   ],
   "note": "All four preconditioners. FFT directions are parameters assumed adjoint and inverse up to N; real arithmetic is exact."
  },
  {
   "property": "C79",
   "status": "proved",
   "theorems": [
    "Mpb.Target.C79_exact_inverse",
    "Mpb.Maxwell.C79_diagonal"
   ],
   "note": "Exact arithmetic; FFT directions assumed inverse up to N. C79_diagonal is for the arrays filled by the program."
  },
  {
   "property": "C80",
   "status": "partial",
   "theorems": [
    "Mpb.Davidson.C80_result",
    "Mpb.Davidson.C80_descent",
    "Mpb.Davidson.C80_upper_bound",
    "Mpb.Davidson.C80_window_partial",
    "Mpb.Davidson.C80_window_refuted"
   ],
   "note": "Everything but the window is proved in full (descent: without target, as mpb calls it). The window is the nearest one unless an eigenvalue is more than p-fold; with such a degeneracy it is refuted. Exact arithmetic, LAPACK by contract"
  },
  {
   "property": "C81",
   "status": "partial",
   "theorems": [
    "Mpb.Davidson.C81_ends_partial",
    "Mpb.Davidson.C81_small_space_refuted",
    "Mpb.Davidson.C81_exact_start_refuted"
   ],
   "note": "Every run ends; the only abort within the iterations is a dependent new direction. Returning on all well-posed problems is refuted: aborts when 2p exceeds the dimension of the space and when started from an exact solution"
  },
  {
   "property": "C82",
   "status": "partial",
   "theorems": [
    "Mpb.Objects.C82_values_partial",
    "Mpb.Objects.C82_state_partial",
    "Mpb.Objects.C82_mu_refuted",
    "Mpb.Objects.C82_label_refuted"
   ],
   "note": "All histories of commands: the program answers as the memory-free specification and stays within its arrays. Restricted: the current field is not the permeability (refuted: cur-field is rejected after get-mu), cvector-field-nonbloch! is used on vectors, user functions return values of the destination's type. Garbage collection of variables is not modelled. Label after field-map! with one source of another type is stale (refuted)."
  },
  {
   "property": "C83",
   "status": "proved",
   "theorems": [
    "Mpb.Transform.C83_overlap",
    "Mpb.Transform.C83_rejects",
    "Mpb.Transform.C83_eigenvalue",
    "Mpb.Transform.C83_translation",
    "Mpb.Transform.C83_bands",
    "Mpb.Transform.C83_bound"
   ],
   "note": "Complex serial build (the others end the program with a message, transform.c:64-85). Exact arithmetic; libctl's inverse modelled by cofactors."
  },
  {
   "property": "C84",
   "status": "proved",
   "theorems": [
    "Mpb.Tensor.C84_detect",
    "Mpb.Tensor.C84_bulk",
    "Mpb.Tensor.C84_no_normal"
   ],
   "note": "Hermitian-tensor build, serial loop, exact reals; the Kottke branch (interface with a normal) is the subject of C11 and C12."
  },
  {
   "property": "C85",
   "status": "proved",
   "theorems": [
    "Mpb.Epsilon.C85_isotropic",
    "Mpb.Epsilon.C85_bounds",
    "Mpb.Epsilon.C85_rotation",
    "Mpb.Epsilon.C85_interface",
    "Mpb.Epsilon.C85_point",
    "Mpb.Epsilon.C85_point_exact",
    "Mpb.Epsilon.C85_point_upper",
    "Mpb.Epsilon.C85_point_bounds",
    "Mpb.Epsilon.C85_stats",
    "Mpb.Epsilon.C85_component",
    "Mpb.Epsilon.C85_file",
    "Mpb.Epsilon.C85_not_between"
   ],
   "note": "Build with Hermitian tensors; statistics for the complex serial build (weights of the half-stored build are C41). LAPACK's heev is a parameter with its contract (heev_exists shows it can be met). C85_not_between records that 'between the neighbouring pixel values' would be false."
  },
  {
   "property": "C86",
   "status": "partial",
   "theorems": [
    "Mpb.MatGrid.C86_bands_partial",
    "Mpb.MatGrid.C86_gradient_partial",
    "Mpb.MatGrid.C86_printed_partial",
    "Mpb.MatGrid.C86_flat_refuted",
    "Mpb.MatGrid.C86_negative_refuted",
    "Mpb.MatGrid.C86_half_refuted",
    "Mpb.MatGrid.C86_mesh_refuted"
   ],
   "note": "C86_bands_partial: for the bands counted from below, with no assumption on how the modes change with the grid, at non-degenerate modes; C86_gradient_partial: along any continuous family of modes. Proved for the complex serial build with a mesh of one point per pixel (no averaged tensors), under the conditions of C50 at every grid point. Refuted with the default mesh of three points (averaged pixels: the gradient looks at the grid points only), in the inversion-symmetric build (uninitialised index), in a direction with a size and one grid point (the gradient is sampled at another point than the dielectric function), and with negative-epsilon-ok? (freqs holds the squared frequency)."
  },
  {
   "property": "C87",
   "status": "partial",
   "theorems": [
    "Mpb.MatGrid.C87_value_partial",
    "Mpb.MatGrid.C87_gradient_partial",
    "Mpb.MatGrid.C87_half_refuted",
    "Mpb.MatGrid.C87_mesh_refuted"
   ],
   "note": "Serial builds. Value: the mean over all points of the cell of (shown epsilon - interpolated file value)^2. Gradient: exact derivative of the very function called without a gradient. The pixel hypothesis (each pixel's mean epsilon is the value of the structure at the pixel, the shown value) is proved from the set-up for a mesh of one point in the complex build (pixels_reset). With the default mesh of three points the gradient is wrong (C87_mesh_refuted: the shown value is that of the averaged tensor, the gradient looks at the grid points only). The inversion-symmetric build needs a file with that symmetry: C87_half_refuted shows a wrong gradient otherwise (mirror point uses the stored point's scale). Not covered: MPI."
  },
  {
   "property": "C88",
   "status": "proved",
   "theorems": [
    "Mpb.Moment.C88_symmetric",
    "Mpb.Moment.C88_mesh",
    "Mpb.Moment.C88_exact",
    "Mpb.Moment.C88_exact_plane",
    "Mpb.Moment.C88_two_media",
    "Mpb.Moment.C88_normal_cube",
    "Mpb.Moment.C88_normal_plane",
    "Mpb.Moment.C88_normal_smooth",
    "Mpb.Moment.C88_radius"
   ],
   "note": "exact reals; the operation must be a signed permutation of the lattice directions and, in Cartesian coordinates, a symmetry of the moment mesh; media isotropic unless Cartesian axes are mapped to each other (the corner test compares components)"
  },
  {
   "property": "C89",
   "status": "proved",
   "theorems": [
    "Mpb.Objects.C89_points",
    "Mpb.Objects.C89_bloch"
   ],
   "note": "Restrictions as in C82 (the current field is not the permeability; cvector-field-nonbloch! on vectors; user functions return the destination's type). One process, exact numbers."
  },
  {
   "property": "C90",
   "status": "partial",
   "theorems": [
    "Mpb.MatOpt.C90_start_partial",
    "Mpb.MatOpt.C90_bands",
    "Mpb.MatOpt.C90_tetm_band_partial",
    "Mpb.MatOpt.C90_tetm_band_refuted",
    "Mpb.MatOpt.C90_above_refuted",
    "Mpb.MatOpt.C90_uprod_refuted",
    "Mpb.MatOpt.C90_stale_refuted"
   ],
   "note": "Proved when the dielectric function is that of the grids and the contents are within the bounds. False as stated: contents above 1 are not clamped, zeros in U_PROD grids are raised after the bands were computed, the bands of a stale dielectric function are used, and min-tetm-gap accepts band numbers below 1 (out-of-bounds read). Frequencies reproducible and not negative."
  },
  {
   "property": "C91",
   "status": "partial",
   "theorems": [
    "Mpb.MpbData.C91_run_partial",
    "Mpb.MpbData.C91_inputs",
    "Mpb.MpbData.C91_vector",
    "Mpb.MpbData.C91_real",
    "Mpb.MpbData.C91_complex",
    "Mpb.MpbData.C91_default",
    "Mpb.MpbData.C91_named_refuted",
    "Mpb.MpbData.C91_transpose_refuted",
    "Mpb.MpbData.C91_mismatch"
   ],
   "note": "Proved for all files with independent lattice vectors and sound datasets, all options and histories; with default options the output equals the input. Refuted in two points: -T on a one-dimensional dataset loses values; -d does not keep the vector field from being transformed. HDF5 is a map from names to datasets."
  },
  {
   "property": "C92",
   "status": "partial",
   "theorems": [
    "Mpb.Run.C92_run_partial",
    "Mpb.Run.C92_any",
    "Mpb.Run.C92_no_bands",
    "Mpb.Run.C92_whole",
    "Mpb.Run.C92_jobs",
    "Mpb.Run.C92_mpb_split_refuted",
    "Mpb.Run.C92_randomize_refuted",
    "Mpb.Run.C92_combine",
    "Mpb.Run.C92_at_kpoint",
    "Mpb.Run.C92_dpwr_partial",
    "Mpb.Run.C92_dpwr_refuted",
    "Mpb.Run.C92_find_k_partial",
    "Mpb.Run.C92_find_k_split_refuted",
    "Mpb.Run.C92_find_k_combine_refuted",
    "Mpb.Run.C92_reset",
    "Mpb.Run.C92_randomize"
   ],
   "note": "Proved for all k-points, bands, jobs and band functions without randomize-fields?; refuted: randomize-fields? randomises the fields before the band functions, mpb-split runs the first chunk twice, find-k calls nothing in later jobs of a split run, functions without argument in output-dpwr-in-objects and in combined functions under find-k are not called. Band functions that start runs themselves are not modelled."
  },
  {
   "property": "C93",
   "status": "partial",
   "theorems": [
    "Mpb.Kpoint.C93_result",
    "Mpb.Kpoint.C93_all_bands",
    "Mpb.Kpoint.C93_sum_bound",
    "Mpb.Kpoint.C93_upper_bound",
    "Mpb.Kpoint.C93_frequencies",
    "Mpb.Kpoint.C93_memory",
    "Mpb.Kpoint.C93_sorted_refuted",
    "Mpb.Kpoint.C93_zero_k_mu_refuted"
   ],
   "note": "Orthonormality, constraints, Rayleigh quotients and bounds are proved for every run that returns. Refuted: frequencies need not increase across blocks; at k = 0 with a permeability the constraint chain does not enforce orthogonality to earlier blocks. Not proved: that a run returns rather than aborts (see C76, C81, C122); exact arithmetic."
  },
  {
   "property": "C94",
   "status": "partial",
   "theorems": [
    "Mpb.Dist.C94_program",
    "Mpb.Dist.C94_operator",
    "Mpb.Dist.C94_muinv",
    "Mpb.Dist.C94_ucross",
    "Mpb.Dist.C94_wavevectors",
    "Mpb.Dist.C94_products",
    "Mpb.Dist.C94_combine",
    "Mpb.Dist.C94_deflation",
    "Mpb.Dist.C94_parity_constraint",
    "Mpb.Dist.C94_parities",
    "Mpb.Dist.C94_zero_k",
    "Mpb.Dist.C94_planewave",
    "Mpb.Dist.C94_fields",
    "Mpb.Dist.C94_energy",
    "Mpb.Dist.C94_dominant_partial",
    "Mpb.Dist.C94_dominant_groups_refuted",
    "Mpb.Dist.C94_dominant_idle_refuted"
   ],
   "note": "Proved for every operation and for whole programs, and for get-dfield, get-hfield, get-bfield, get-efield and compute-field-energy. The dominant plane wave is proved if every process holds a plane wave and there are no groups; maxwell_dominant_planewave broadcasts from a global rank, which does not exist in any group but the first, and reads an empty array on a process that holds nothing. Output and real scalars are not covered here."
  },
  {
   "property": "C95",
   "status": "partial",
   "theorems": [
    "Mpb.Invariance.C95_units_partial",
    "Mpb.Invariance.C95_setup_partial",
    "Mpb.Invariance.C95_setup_refuted"
   ],
   "note": "Proved: the modes with tensors given on the grid, for all factors; the computed tensors as long as no dipole moment crosses the absolute threshold. Refuted in general: the threshold SMALL = 1e-6 on a length (maxwell_eps.c:653). Not covered: the iterative solver's tolerances, rounding."
  },
  {
   "property": "C96",
   "status": "proved",
   "theorems": [
    "Mpb.Invariance.C96_translation"
   ],
   "note": "For the operators with tensors given on the grid and exact discrete Fourier transforms over the complex numbers (build without inversion symmetry), one process."
  },
  {
   "property": "C97",
   "status": "partial",
   "theorems": [
    "Mpb.Invariance.C97_rotation_partial",
    "Mpb.Invariance.C97_rotation_refuted",
    "Mpb.Invariance.C97_order",
    "Mpb.Invariance.C97_frequencies"
   ],
   "note": "Frequencies with multiplicities: proved for every orthogonal matrix, wavevector and positive definite materials (C97_frequencies). Reordering: proved for all problems (both generating exchanges; SameModes composes). One-to-one norm-keeping correspondence of the modes under turning: proved unless there is a permeability and a planewave with wave vector zero. In that remaining case the statement is false of the code: it keeps only two components, along fixed axes, of a constant field, and exchanging x and y in a two-point magnetic crystal at zero wavevector makes modes of frequencies 0 and 1 non-orthogonal that were orthogonal (C97_rotation_refuted)."
  },
  {
   "property": "C98",
   "status": "proved",
   "theorems": [
    "Mpb.Eig.C98_direction",
    "Mpb.Eig.C98_start"
   ],
   "note": ""
  },
  {
   "property": "C99",
   "status": "proved",
   "theorems": [
    "Mpb.Eig.C99_work_arrays",
    "Mpb.Davidson.C99_davidson"
   ],
   "note": ""
  }
 ]
}
