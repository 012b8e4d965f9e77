# Formal model of MPB in Lean 4: design

Source under study: `/repo` (NanoComp/mpb at the pinned commit). The model is in `lean/Verif/`. `properties.jsonl`
lists the properties, `MANIFEST.json` maps each property to the exact theorem names, `seeded/LOG.jsonl` records the
wrong-program experiments.

## Method

* Each C (or Scheme) function is transcribed to a total Lean function. C loops become recursive functions or folds with
  the same index expressions; in-place updates act on an explicit memory (`Nat → α` with an explicit size, or a list).
* Undefined behaviour is a separate outcome: out-of-range accesses, division by zero of integers, null dereference and
  failing `CHECK`s are `none`/error constructors, never a default value.
* Specifications are separate definitions that do not use the model's helpers.
* Floating point is idealised: `real` is the field `ℝ` (or any ordered field), `scalar_complex` is `ℂ`.
* External code (FFTW, BLAS, LAPACK, MPI, HDF5, libctl geometry, nlopt, user callbacks) appears as a parameter; what is
  assumed about it is an explicit hypothesis of the theorem.
* If the unchanged code violates a property, the violation is a theorem (`..._refuted` or a name saying what fails) with
  a concrete witness, and the part that holds is proved with the suffix `_partial`.

## Files

Per area `X`: `Verif/X/Model.lean` (transcription, with file/line citations), `Verif/X/Spec.lean` (independent
specification), `Verif/X/Lemmas.lean` (helpers), `Verif/X/Props.lean` (property theorems and their non-vacuity examples).
Small areas put Model and Spec in one file.

## Plan per property

| id | model | proof |
|----|-------|-------|
| C01 | `update_maxwell_data_k` on one grid point over ℝ (sqrt), both degenerate branches | direct algebra with `Real.sqrt` |
| C02 | `assign_t2c`, `project_c2t`, `assign_cross_t2c`, `assign_cross_c2t`, `assign_ucross_t2c` over ℂ with real m,n | algebra from orthonormality; spec is the cross product |
| C03 | `assign_crossinv_*`, `maxwell_simple_precondition` | algebra; positivity of `FIX_DENOM` |
| C04 | the pipeline curl → FFT → ε⁻¹ → FFT⁻¹ → curl on finite index sets, FFT a parameter | adjointness of each stage |
| C05 | index → harmonic map for each axis | `omega`; refutation for odd sizes |
| C06 | `maxwell_set_planewave`, `maxwell_dominant_planewave` | argmax loop invariant, `omega` |
| C07 | `compute_field_divergence` | refutation by witness, partial for in-plane k+G |
| C08 | `maxwell_sym_matrix_invert` real and Hermitian | `field_simp`/`ring`; refutation for singular diagonal |
| C09 | `maxwell_sym_matrix_positive_definite`, `check_maxwell_dielectric` | Sylvester by completing squares; loop induction |
| C10 | `maxwell_rotation_matrix`, `maxwell_sym_matrix_rotate` | algebra |
| C11 | Kottke average of `mean_epsilon_func` | Schur complement argument |
| C12 | `get_mesh`, the averaging loops | sums; refutation for mesh size < 1 |
| C13 | `set_maxwell_mu` over an abstract `set_maxwell_dielectric` on a record | frame argument |
| C14 | in-place z/y parity loops on arrays | loop invariant over the pairing loop |
| C15 | parity sums | Cauchy–Schwarz type bound by pairing |
| C16 | flag logic | case analysis on all bit patterns, induction on histories |
| C17 | `zero_k_*` functions | case analysis, orthogonality |
| C18 | `evectmatrix_resize`, `evectmatrix_copy_slice` in place | loop invariants |
| C19 | block loop of `solve_kpoint` | induction on the loop, log of solved bands |
| C20 | block size computation | integer division lemmas; refutation for zero bands |
| C21 | `deflation_constraint` as matrices | matrix algebra |
| C22 | `sqmatrix_*` loops | loop invariants |
| C23 | `blasglue_gemm` over a column-major gemm specification | index algebra; refutation for k = 0 |
| C24 | `dcsrch` state machine with oracle | invariant over call history |
| C25 | `dcstep` | case analysis |
| C26 | `trace_func` in the scalar/diagonalised form | derivative computation |
| C27 | `divide_parallel_processes` | division lemmas |
| C28 | communicator stack | refinement to stack; refutation for nesting |
| C29 | processes as transition system | invariant over all interleavings |
| C30 | list of blocks | refinement to finite map |
| C31 | unrolled strided copy | loop invariant |
| C32 | hyperslab write/read | round trip |
| C33 | `add_fname_suffix` on character lists | list lemmas; refutation |
| C34 | `fieldio_write_complex_field` phase loop | loop invariant; refutation for one component |
| C35 | half-grid index maps and in-place `*_otherhalf` loops | bijection, loop invariant |
| C36–C39 | mpb-data functions | algebra, cache invariant, list lemmas |
| C40 | `get_val`, `interp_val` | floor/fract lemmas |
| C41 | weighted half-grid sums | involution of `Finset` sums |
| C42 | in-place loop | loop invariant |
| C43 | `fix_field_phase` over ℂ | square-root-of-phase argument; refutation for vanishing sum of squares |
| C44 | command state machine | invariant over histories; refutations |
| C45 | `init_params` allocation decisions | invariant over histories; refutation |
| C46 | lattice matrices | matrix algebra |
| C47 | scaling in `get_dfield` | algebra from the eigenvalue equation; refutation in negative-ε mode |
| C48 | name building on character lists | length bound, injectivity |
| C49 | `linear_interpolate` | algebra; refutation for r > 1 |
| C50 | `add_interpolate_weights` | adjointness with C49's function |
| C51 | material grid lists | list induction |
| C52 | `maxgap_func`, `mindiff_func` | derivatives; refutation of history independence |
| C53 | constraint cache | invariant over call orders |
| C54 | mirror loop | well-founded recursion |
| C55–C60 | Scheme functions | list/well-founded induction |
| C61 | the whole loop of `set_maxwell_dielectric` with callbacks as parameters | case analysis over the branches, Schur complements, loop induction |
| C62 | same model as C61 | branch analysis, loop induction |
| C63 | updateK + mirror pairing | basis vectors of K and of its mirror image; refuted at Nyquist/odd sizes |
| C64 | heap with pointers (aliasing visible), loops as folds, BLAS by reference semantics | block-write lemma: a loop that overwrites nothing it reads later computes the pointwise function; then matrix algebra |
| C66 | Memory-level model of eigensolver_get_eigenvals(_aux) on the heap of Mat; LAPACK heev/potrf and the operator are contracts (Solver/Ritz.lean) | C22/C23/C64 give the matrices after each call; algebra of U^(-1/2) |
| C65 | chunk loops and block loops as lists of (first band, count) | induction over the loops; refuted for group velocities and overlaps with a permeability and blocks of more than 20 bands |
| C67 | the block loop with the Hblock/H aliasing, both functions over the operator model | loop invariant; the aliasing case is a refutation with a one-planewave example |
| C69 | the same model; a family of eigenvectors at k + t u | Hellmann-Feynman theorem for the discrete operator, no differentiability of the family assumed; magnetic media with non-transverse H refuted |
| C70 | MatGrid/InterpModel: `linearInterpolate`, `wrap`, `epsilonFileFunc` over exact reals, array reads partial | the weights form a trilinear interpolation at the clamped half-voxel coordinate; convexity gives the range |
| C71 | MatGrid/ToolsModel: `defaultPos` (coordinates p/size) with `gridVal` | the mirror in `linear_interpolate` makes p and -p coincide: refuted by a general theorem and a two-pixel witness; what is computed instead is proved |
| C72 | MatGrid/ToolsModel: `saveGrid`, `fileDims`, `loadGrid` (loops writing an array, partial reads); HDF5 stores dims and numbers | loop lemma for writes at distinct positions + C49; pixel centres are exact interpolation nodes |
| C73 | MatOpt/Model: `constraintVal`, `gapOf`; feasibility is `constraintVal <= 0` at every k-point | monotonicity of the relative gap in both edges (max); for min the lower bound 0 on the second edge gives the value -2 for every structure: refuted |
| C68 | Eig/Model: the whole solver loop over exact matrices, LAPACK, timings and random blocks as parameters; Linmin for the line search | Eig/StepProps, Props: invariant (constraint, angle, mode) over the loop, one-step descent from C26 and C24; C68_approx_refuted and C68_stale_refuted show the approximate line minimisation can raise the trace and hand on a wrong slope |
| C74 | Eig/Model, Eig/Spec (RitzBasis) | induction over the loop with the record of traces; termination by counting iterations and restarts; C74_negative_refuted: with A ≤ -B no run ever returns |
| C75 | Eig/Spec (Modes: complete B-orthonormal eigenvectors of the constrained space) | min-max argument: a combination of the first j+1 Ritz vectors without the first j modes exists by dimension |
| C76 | Eig/Model (gradient, direction, lineMin) | C76_stationary (first half); C76_exact_start_refuted: started from an exact solution every run aborts, as the zero direction is divided by its norm |
| C77 | `Target/Model`: the targeted operator as two passes of the modelled operator with a subtraction, over arrays with possible aliasing | composition of C04's bandwise result with itself; Hermitian from C05; selection from the solver's variational bound (C75). The documented nearest-frequency claim is refuted |
| C78 | `Target/Model`: the four preconditioners as loops over arrays, FFT as an adjoint pair of transforms | bandwise refinement; positivity through the adjoint chain curl^-1 eps curl^-1 |
| C79 | same model as C78 | the transforms cancel in a homogeneous medium; curl and inverse curl in the transverse basis cancel |
| C80 | eigensolver_davidson.c whole: basis, flat VAV, restart, window, convergence test; LAPACK by contract | invariant: basis orthonormal and constrained, VAV upper blocks; Ritz compare on nested spaces |
| C81 | same model, with CHECK failures as outcomes | termination by the iteration limit; the only failures are dependent directions; refuted by counting dimensions and for exact starts |
| C82 | memory blocks with sizes; field smobs with a type, letter, sizes and block number; the commands as functions on the state, out-of-bounds access is none | simulation against a specification without memory (Spec.step), by induction over the history; refutation for get-mu, which cur-field does not accept, and for the letter after field-map! |
| C83 | the loop over the grid with interpolation (model of C40), complex serial build, exact reals; libctl's matrix inverse by cofactors | refinement to a sum over the grid of Hermitian products of Bloch fields; eigenvalue, translation, band and Cauchy-Schwarz theorems on top |
| C84 | Tensor/Model.lean (corners, differs, detectInterface, voxel, setDielectric) | corner list and entry comparison against an independent Interface predicate; loop invariant of set_maxwell_dielectric gives the stored value |
| C85 | Verif/Epsilon: mean medium through the eigenvalues (LAPACK heev a parameter with its contract), point interpolation on top of C40, statistics loop, component switch and dataset names | spectral decomposition of 3x3 Hermitian tensors (trace minus largest eigenvalue), convexity for interpolation, loop invariant and AM-HM for the statistics |
| C86 | the loop over the grid, the positions, the squared electric field from the solved band, the scale factors; the dielectric function set up by set_maxwell_dielectric with the changed value | Hellmann-Feynman for the dielectric function (difference quotients of the eigenvalue are weighted sums of difference quotients of 1/eps), with C50 for the derivative of eps at each point |
| C87 | MatGrid/MatchModel: the objective function with its loop over stored points and their mirror points, the epsilon set-up a parameter returning the pixels' tensors | fold lemma for the value, derivative of a finite sum for the gradient; refuted in the inversion-symmetric build for an asymmetric file (MatchCases) |
| C88 | the 50-point and 12-point tables as generated by sphere-quad.c (with the sorting), get_moment_mesh, and the whole of set_maxwell_dielectric (area Tensor) | the tables as sets of integer codes closed under all 48 signed permutations (kernel decision over the finite table), exact moments by expansion; the stored value at the image of a pixel by covariance of every branch: mesh points permuted, corner test, trace dipole, frame-independence of the Kottke average, inversion |
| C89 | Objects/PointModel: the commands of C82 plus solve-kpoint (current k) and the point reads on blocks of memory | refinement of a memory-free specification for all histories (C89_points), Bloch periodicity (C89_bloch) |
| C90 | MatOpt/StartModel: material_grids_maxmin_gap up to the optimiser | from the loop theorem of C53 and C53_constraints; refuted for contents above 1, U_PROD grids with zeros, grids changed since the last init, and for the band check of min-tetm-gap |
| C91 | `Verif.MpbData.FileModel`: files as maps from names to datasets; `handle_dataset`, `handle_cvector_dataset`, `handle_file` with the phase cache and junk memory | `FileSpec`: fields, output grid, values; proof: each step refines one field, induction over the list of fields; `-T` on one-dimensional data and `-d` with a vector field are refuted |
| C92 | Run/Model: run-parity over an arbitrary solver with a log of solutions and calls, band function combinators, find-k's runs, mpb-split | Run/Props: C92_run_partial, C92_any by induction over k-points and functions with the relation Logs; jobs by chunk concatenation; combinators up to permutation; refuted: randomize-fields? before band functions, mpb-split runs the first chunk twice, find-k in split runs, thunks in output-dpwr-in-objects |
| C93 | `Verif.Kpoint.Model`: the block loop of solve_kpoint with the modelled eigensolvers inside, the chain of constraints as matrices, constant bands, target frequency | `Verif.Kpoint.Props`: invariant over the blocks from C74/C80 (what one eigensolver call returns) and from the chain of constraints being a projection; bounds by Cauchy interlacing; `Verif.Kpoint.Runs`: a concrete run of two blocks whose frequencies decrease, and the constraint at k = 0 with a permeability |
| C94 | The arrays of all processes with the loops of one process run on its own sizes; FFTW's distributed transforms and MPI's collective operations are parameters with their documented meaning; complex scalars | Each operation is shown to map pieces of an array to pieces of the serial result; a simulation by induction over the steps of an arbitrary program gives whole computations. The dominant plane wave fails if the processes are divided into groups or one holds no plane wave (refuted) |
| C95 | whole problem (grid, lattice, wavevector, tensors, discrete Fourier transforms given by their sums) assembled from the modelled parts; set-up of the dielectric as a whole (mesh and averaging) | scaling of the reciprocal lattice, of the wave vectors and of the operator; congruence of the averaging; concrete two-layer structure for the refutation |
| C96 | operators of C11 with the discrete Fourier transform given by its sum | each planewave gets a phase and each grid point a new address; the operators commute with that map |
| C97 | as C96 | per planewave a unitary change between the two transverse bases; renumbering of grid points and planewaves |
| C98 | Eig.Model and Eig.Direction: one iteration of the solver as a function on the state; the previous direction, gradient and scalars are named by the specification | C98_direction: case analysis over the flags, with the slots of the work arrays tracked through one iteration |
| C99 | Eig.WorkArrays, Davidson.WorkArrays: two runs with different contents of the work arrays | C99_work_arrays, C99_davidson: simulation relation that ignores the dead slots, kept by every iteration |
| C100 | MatGrid.Model: visit, matgridVal over the list of objects that contain the point | C100_merge: induction over the stack against an inductive specification of the grids that take part |
| C101 | Medium.Model: pick, resolve, materialTensor, tensorAt | C101_*: case analysis on the kinds of material; independence of everything below, of the default and of the file |
| C102 | Medium.Model: hasMu, solverMu | C102_permeability_partial for geometries without material functions; C102_function_refuted: a material function that returns media with a permeability is not noticed |
| C103 | Verif/Invariance/Reverse.lean: the discretised problem of Verif/Invariance/Model.lean at two wavevectors | conjugation of the whole chain of the operator composed with a reflection of the planewaves about the middle of the kept set: exact equality of the spectra at k and -k - skew, where skew is 0, 1, 2 for grid sizes 1, even, odd; the full statement is refuted by vacuum on two and three grid points |
| C104 | Invariance/Model.lean (the operator data of a problem) with the band operators of Maxwell | the operators as matrices on the amplitudes (PairOp.mat); the quadratic forms are grid forms of the inverse tensors; inversion reverses the order of positive-definite matrices (form_inv_le); a dimension count of spectral subspaces (count_mono) compares the numbers of modes of the pencils (C, M⁻¹) |
| C105 | The operators of C95-C104 with the transforms and wavevectors filled in; modes counted with multiplicity (`ModesUpTo`). | A field of the second wavevector is re-expanded at the first; its curl differs by the cross product with kappa (inversion of the transforms, completeness of the transverse basis), its energy is not below that of its transverse part; triangle inequality for the electric energy; counting argument (Courant, Fischer) for pencils of matrices. |
| C106 | MatGrid/DebugModel: the three debugging functions as loops over points and grids with the grid memory, the dielectric function and the frequencies as state; unallocated reads and writes are failures | MatGrid/DebugProps: refinement of the loops to the printed table, exact derivative from C47 machinery, limit of the quotients; refuted: in the build for inversion symmetry the array of tensors is read beyond its end, the frequencies after approx-gradient are those of the perturbed grid, a dielectric function not recomputed since the grids changed, an index out of range |
| C107 | `Problem.data` (C97): reciprocal vectors, planewaves, transforms and operators of a lattice with stored tensors, for the small and the large cell | every planewave of the large cell is one planewave of exactly one folded wavevector (`harm_place1` by cases on the parity of the grid); the transforms of the large cell are phases times those of the small one, the transform back follows from the inversion of the small transforms; the operators act on each class separately, modes split, and counting of independent modes by dimensions |
| C108 | a file as named objects with attributes; every call of matrixio on it, with stopping and undefined behaviour as distinct outcomes; the calls of `output_field_to_file` in order; HDF5 and its iteration order are the contract | each call adds one entry to the list of contents; induction over the calls; the alphabetically first name; a frame lemma for later calls |
| C109 | The two Scheme functions as command lists of the field-variable model (C82); get_efield on top of the field model of C47; group velocity model of C46/C67 | refinement of C82 for the histories; algebra of E* x H . u = -E* . (u x H) for the flux; Cauchy-Schwarz for the two energies and Parseval for the bound; refuted when negative permittivities are allowed |
| C110 | the fields of Field/EnergyModel and Flux/Model; spectral curl and divergence in Laws/Spec | the transforms invert each other, so the coefficients of the returned fields are known; the eigenvalue equation gives Faraday's law (the outer inverse permeability is cancelled by positive definiteness). Refuted: B = mu H with an anisotropic permeability (only the transverse part of mu^-1 B is kept), and Faraday's law in negative-epsilon mode |
| C111 | Operators of the real-scalar build over a memory of reals (complex numbers are pairs), with the padded rows and the stored half; r2c by FFTW's definition, c2r as a parameter with FFTW's contract and arbitrary leftovers in the padding. | Apply lemmas for every loop give, per band, the same single-band operator as the complex build (the field at opposite points is conjugate); modes by linearity; multiplicities by choosing independent vectors among real and imaginary parts. A transform satisfying the contract is constructed for every grid. |
| C112 | Perturb.Model adds to the sums of C41 the type check, the range test on the mean epsilon, the loop over the objects and the factor; bands are counted as in C104 | the band is the n-th eigenvalue of the pencil (M C M, M); a min-max argument in the eigenbasis at s = 1 (Perturb.Matrix) gives the derivative of a simple eigenvalue without any assumption on the eigenvectors at other s; the form of the derivative is the integral of the densities of C42 |
| C113 | Invariance/Model.lean (the operator of a problem), Parity/Model.lean (the constraints) | In the plane K.z = 0, so the transverse basis of update_maxwell_data_k has m along z and n in the plane; the matrices of the operators then have no entries between the two, they commute with the projections, and independent eigenvectors of the two classes add up (dimension of spans). |
| C114 | Mat/DotModel.lean: the functions on the heap of arrays, the block loop with resizing of the work array, LAPACK's geev and maxwell_compute_H_from_B as parameters with contracts | Induction over the blocks: the columns done so far are right and stored and current bands unchanged; the path product of changed modes is conjugate to the original one, the characteristic polynomial of a transposed or conjugate matrix is the same. Refuted for band number 0 with a permeability: no check, the column before the first is read. |
| C115 | Verif/Invariance/Empty.lean on the discretised problem of Verif/Invariance/Model.lean; the kept planewaves are specified by their integer coordinates and the products of K with the lattice vectors (EmptySpec.lean) | the operator is diagonal in the planewaves of a uniform medium, so a field is a mode iff its planewaves share |k+G|^2; dimension count; the bounds by monotonicity (C104) |
| C116 | Lapack is any set of routines on column-major arrays, with promises PotrfOk, PotriOk, HetOk, HegvOk, HeevOk in Mat/LapackSpec.lean; the wrappers and the two callers are in Mat/LapackModel.lean | composition of the promises through transposition; refuted: the documented identity is wrong when the metric is not the identity |
| C117 | Exchanged, Passive, problemOf in Invariance/DualSpec.lean on the problems of C95-C107 | the curl in the transverse basis is a skew matrix R, the problem is -R E R M x = lambda x; independent eigenvectors of -R E R M are mapped to such of -R M R E (kernel and range treated apart) |
| C118 | matchFile (MatGrid/MatchRunModel.lean): the whole command over matchEps of C87, with NLopt as a function from the evaluations so far to the next move, and the effects of each evaluation on grids and tensors. | Induction over the evaluations: each history entry's value is the misfit of the grids set to that point; NLopt's promise then gives the result. Ending: totality of every evaluation within the bounds. Values above 1 are not clamped (refuted); products raise zeros beforehand (refuted). |
| C119 | stats (Run/StatsModel.lean): the index arithmetic on the sorted list; the list of iterations is that of the run model of C92. | Count the entries below and above by induction on sorted lists: the set of medians is the interval between the two middle entries. Collection by induction over the k-points. |
| C120 | startHook (Util/StartModel.lean): the loop over argv with removal; atoi a parameter. | Induction over the arguments; two options next to each other: the second one is overlooked (refuted). |
| C121 | Each process runs output_field_to_file on the shared file with its block (dims, local_dims, start, output_k and output_R as in the HAVE_MPI branch); in turn: fold over the ranks, the master creating and the others opening; together: datasets created once, blocks written in an arbitrary permutation per dataset. | Invariant: after some processes every dataset is right in their rows; each write makes its rows right and keeps the others; the rows cover the grid. |
| C122 | The model of C24-C26 (linmin, dcsrch, dcstep, trace_func over exact reals, work arrays as in C), the number of evaluations unbounded. | Without a bracket every step is longer than the previous one until the limit; with a bracket the interval shrinks to two thirds every three evaluations and its lower end leaves 0 because the function goes down there, so the relative-width test ends it; at the limit the trace has its initial value (period pi), which brackets. Two endless searches are exhibited: trial step 0, and a slope window at the limit. |
| C123 | `main` of mpb-data over a file system (path to datasets), the options as `getopt` delivers them with converted arguments, character arrays with their capacities, on top of the model of `handle_file` (C91) | induction over the options with a generalised accumulator; relational induction through `handle_file` showing that the phase cache never matters; induction over the files; counterexample: a dataset name of 298 characters overflows `name_re[300]` |
| C124 | Plans/Model: objects with handles (blocks with sizes, plans with what they were made for), create/destroy, the cache search, creation, execution and retention; release or execution of a dead handle is undefined behaviour | invariant over the session: the live objects are exactly those destroy releases, the keys of the cache are the first 32 different layouts, each stored plan was made for its key |

## Trusted base

* Lean 4.33.0's kernel. Axioms: at most `propext`, `Classical.choice`, `Quot.sound` (checked per theorem).
* The faithfulness of the transcription, for which every definition cites the source lines it models.
* Idealisation of floating point as exact real/complex arithmetic; C `int` as unbounded integer except where a theorem
  is about overflow.
* Assumptions on external code, always visible as hypotheses.

<!-- generated -->
## Parts of the code that are modelled

Per source file the functions with a definition in the model that cites them (the module in which they are cited most), and the functions without one. A function is listed as modelled if a definition cites its lines or its name; what is left out of a modelled function (printing, timing, error messages) is said in the comment of the definition. `tests/`, the build system, the libctl interface generator's output and the documentation are not modelled.

| file | modelled | not modelled |
|---|---|---|
| mpb/epsilon.c | Epsilon: `get_epsilon`, `get_epsilon_tensor`; Medium: `material_epsilon`, `epsilon_func`; Tensor: `mean_epsilon_func` | — |
| mpb/epsilon_file.c | H5: `get_epsilon_file_func`; MatGrid: `linear_interpolate`, `epsilon_file_func` | `destroy_epsilon_file_func_data` |
| mpb/field-smob.c | Field: `cvector3_conj`, `integrate_fieldL`; Objects: `update_curfield_smob`, `assert_field_smob`, `rscalar_field_make`, `cscalar_field_make`, `cvector_field_make`, `cvector_field_nonblochB`, `field_make`, `fields_conform`, `fields_conformp`, `field_set`, `field_setB`, `field_load`, `field_mapLB`; Session: `update_curfield` | `mark_null`, `field_p`, `rscalar_field_p`, `cscalar_field_p`, `cvector_field_p`, `print_field_smob`, `free_field_smob`, `field2scm`, `register_field_smobs`, `cur_fieldp` |
| mpb/fields.c | Dist: `get_efield_from_dfield`; Epsilon: `mean_medium_from_matrix`, `interp_eps_inv`, `get_epsilon_point`, `get_epsilon_inverse_tensor_point`; Field: `compute_field_energy_internal`, `compute_field_energy`, `fix_field_phase`, `get_val`, `interp_val`, `interp_cval`, `get_field_point`, `compute_field_integral`; Flux: `get_efield`; H5: `output_scalarfield`, `output_field_to_file`; MatGrid: `compute_field_squared`; Maxwell: `compute_field_divergence`; Names: `fix_fname`; Objects: `get_energy_point`, `get_bloch_field_point_`, `get_bloch_field_point`, `get_bloch_cscalar_point`, `get_cscalar_point`, `rscalar_field_get_point`, `cvector_field_get_point_bloch`, `cvector_field_get_point`, `cscalar_field_get_point_bloch`, `cscalar_field_get_point`; Perturb: `compute_energy_in_dielectric`, `compute_energy_in_object_list`; RealBuild: `get_dfield`, `get_hfield`, `get_bfield` | `compute_energy_integral` |
| mpb/material_grid.c | MatGrid: `material_grid_val`, `compatible_matgrids`, `matgrid_val`, `get_material_grids`, `material_grids_ntot`, `material_grids_set`, `material_grids_get`, `add_interpolate_weights`, `material_grids_addgradient_point`, `material_grids_addgradient`, `print_material_grids_gradient`, `material_grids_approx_gradient`, `print_material_grids_deps_du`, `print_material_grids_deps_du_numeric`, `synchronize_material_grid`, `randomize_material_gridB`, `save_material_grid`, `load_material_gridB`, `match_eps_func`, `material_grids_match_epsilon_fileB` | `material_grid_array`, `material_grid_array_release` |
| mpb/material_grid_opt.c | MatOpt: `mindiff_func`, `material_grids_min_tetm_gap`, `band_constraint`, `maxgap_func`, `material_grids_maxmin_gap` | `material_grids_maxgap`, `material_grids_mingap` |
| mpb/matrix-smob.c | Mat: `evectmatrix_slice2scm`, `sqmatrix2scm`, `sqmatrix_ref`, `sqmatrix_set`, `sqmatrix_mult`, `sqmatrix_diagm`, `sqmatrix_eigvals`, `get_eigenvectors`, `dot_eigenvectors`; Phase: `scale_eigenvector`; Session: `set_eigenvectors`, `load_eigenvectors` | `mark_null`, `evectmatrix_p`, `print_evectmatrix`, `free_evectmatrix`, `sqmatrix_p`, `print_sqmatrix`, `free_sqmatrix`, `evectmatrix2scm`, `register_matrix_smobs`, `assert_sqmatrix_smob`, `assert_evectmatrix_smob`, `sqmatrix_size`, `output_eigenvectors`, `input_eigenvectors`, `save_eigenvectors` |
| mpb/medium.c | Invariance: `reset_epsilon`; Medium: `make_medium`, `make_epsilon`, `make_mu`, `material_has_mu`; Velocity: `init_epsilon`; Workspace: `has_mu` | `variable_material` |
| mpb/mpb-split-preinstall.in | Run: `the whole script` | — |
| mpb/mpb.c | Kpoint: `solve_kpoint`; MatOpt: `randomize_fields`; Names: `parity_string`; Parity: `set_parity`; RealBuild: `compute_1_group_velocity_component`; Session: `curfield_reset`, `set_kpoint_index`, `get_dominant_planewave`; Solver: `deflation_constraint`; Util: `ctl_start_hook`; Velocity: `compute_group_velocity_component`, `compute_1_group_velocity`, `compute_1_group_velocity_reciprocal`; Workspace: `init_params` | `ctl_stop_hook`, `ctl_export_hook`, `mpi_is_masterp`, `using_mpip`, `mpi_num_procs`, `mpi_proc_index`, `mpi_max`, `has_hermitian_epsp`, `has_inversion_symp`, `vector3_to_arr`, `matrix3x3_to_arr`, `cnumber2cscalar`, `cscalar2cnumber`, `cscalar32cvector3`, `cvector32cscalar3`, `get_kpoint_index`, `using_mup`, `compute_zparities`, `compute_yparities` |
| mpb/mpb.scm.in | Brillouin: `kinterpolate-uniform`, `first-brillouin-zone`; Field: `integrate-fields`; FindK: `find-k`; Flux: `field-copy`, `get-poynting`, `output-poynting`, `output-poynting-x`, `output-poynting-y`, `output-poynting-z`, `get-tot-pwr`; Medium: `index`, `epsilon-func`; Objects: `field-map!`; Perturb: `output-epsilon`; Phase: `fix-phase-consistency`; RealBuild: `compute-group-velocities`, `get-efield`; Run: `procedure-num-args`, `output-mu`, `display-eigensolver-stats`, `run-parity`, `output-hfield`, `output-hfield-x`, `output-dpwr`, `output-tot-pwr`, `apply-band-func-thunk`, `apply-band-func`, `output-dpwr-in-objects`, `combine-band-functions`, `output-at-kpoint`, `fix-hfield-phase`; Scheme: `compute-energy-in-objects`, `update-band-range-data`, `output-band-range-data`, `output-gaps`, `retrieve-gap`, `list-split`, `next-factor2357`, `optimize-grid-size!`; Session: `output-field` | `pow2`, `allow-negative-epsilon`, `display-kpoint-data`, `display-zparities`, `display-yparities`, `display-group-velocities`, `get-charge-density`, `get-filename-prefix`, `output-field-x`, `output-field-y`, `output-field-z`, `output-hfield-y`, `output-hfield-z`, `output-bfield`, `output-bfield-x`, `output-bfield-y`, `output-bfield-z`, `output-dfield`, `output-dfield-x`, `output-dfield-y`, `output-dfield-z`, `output-efield`, `output-efield-x`, `output-efield-y`, `output-efield-z`, `output-bpwr`, `output-charge-density`, `fix-bfield-phase`, `fix-dfield-phase`, `fix-efield-phase`, `sqmatrix-diag` |
| mpb/transform.c | Transform: `transformed_overlap`, `compute_symmetry`, `compute_symmetries` | — |
| src/matrices/blasglue.c | Mat: `blasglue_dotc`, `blasglue_gemm`, `blasglue_herk`, `lapackglue_potrf`, `lapackglue_potri`, `lapackglue_hetrf`, `lapackglue_hetri`, `lapackglue_heev`, `lapackglue_geev`, `lapackglue_hegv`, `lapackglue_syev`; Phase: `blasglue_scal` | `blasglue_axpy`, `blasglue_rscal`, `blasglue_copy` |
| src/matrices/eigensolver.c | Eig: `eigensolver_lagrange`, `eigensolver`; Solver: `trace_func` | — |
| src/matrices/eigensolver_davidson.c | Davidson: `eigensolver_davidson` | — |
| src/matrices/eigensolver_utils.c | Davidson: `eigensolver_get_eigenvals_aux`, `eigensolver_get_eigenvals`; Solver: `evect_add_constraint`, `evectconstraint_chain_func` | `evect_destroy_constraints` |
| src/matrices/evectmatrix.c | Davidson: `evectmatrix_aXpbYS_sub`; Dist: `evectmatrix_XtY_diag_real`, `evectmatrix_traceXtY`; Mat: `evectmatrix_copy`, `evectmatrix_resize`, `evectmatrix_aXpbY`, `evectmatrix_XpaYS`, `evectmatrix_XtX`, `evectmatrix_XtY_slice2`, `evectmatrix_XtY_slice`, `evectmatrix_XtY`, `evectmatrixXtY_sub`, `evectmatrix_XtY_diag`; RealBuild: `evectmatrix_copy_slice`, `evectmatrix_XeYS` | `evectmatrix_XtX_diag_real` |
| src/matrices/linmin.c | Linmin: `reverse_func`, `linmin` | — |
| src/matrices/matrices.c | Mat: `matrix_XtY_diag`, `matrix_XpaY_diag`, `matrix_XpaY_diag_real`, `matrix_X_diag_real_pY_diag_real`; Phase: `create_sqmatrix`; RealBuild: `matrix_XtY_diag_real`; Workspace: `create_evectmatrix`, `destroy_evectmatrix` | `destroy_sqmatrix`, `matrix_XtX_diag_real`, `matrix_re_trace_A_diag_real`, `matrix_diag_trace`, `matrix_diag_real_trace` |
| src/matrices/minpack2-linmin.c | — | `strncmp` |
| src/matrices/sqmatrix.c | Davidson: `sqmatrix_resize`, `sqmatrix_copy_upper2full`; Mat: `sqmatrix_copy`, `sqmatrix_symmetrize`, `sqmatrix_trace`, `sqmatrix_traceAtB`, `sqmatrix_AeBC`, `sqmatrix_ApaBC`, `sqmatrix_ApaB`, `sqmatrix_aApbB`, `sqmatrix_invert`, `sqmatrix_gen_eigensolve`, `sqmatrix_eigensolve`, `sqmatrix_eigenvalues`, `sqmatrix_sqrt` | `max2`, `sqmatrix_assert_hermitian` |
| src/matrixio/evectmatrixio.c | IO: `evectmatrixio_writeall_raw`, `evectmatrixio_readall_raw` | — |
| src/matrixio/fieldio.c | H5: `fieldio_write_complex_field`, `fieldio_write_real_vals` | — |
| src/matrixio/matrixio.c | H5: `write_attr`, `open_attr`, `matrixio_write_string_attr`, `matrixio_write_data_attr`, `matrixio_read_string_attr`, `matrixio_read_data_attr`, `add_fname_suffix`, `matrixio_create_`, `matrixio_create`, `matrixio_create_serial`, `matrixio_create_sub`, `matrixio_open_dataset`, `matrixio_create_dataset`, `matrixio_dataset_exists`, `matrixio_dataset_delete`, `matrixio_write_real_data`, `find_dataset`; MatGrid: `matrixio_read_real_data`; MpbData: `matrixio_close_dataset` | `read_attr`, `close_attr`, `matrixio_open_`, `matrixio_close`, `matrixio_open`, `matrixio_open_serial`, `matrixio_close_sub` |
| src/maxwell/maxwell.c | Dist: `maxwell_dominant_planewave`; Maxwell: `maxwell_set_planewave`, `update_maxwell_data_k`; Parity: `set_maxwell_data_parity`; Plans: `create_maxwell_data`, `destroy_maxwell_data`; Workspace: `maxwell_set_num_bands` | `compute_cross`, `create_maxwell_target_data`, `destroy_maxwell_target_data` |
| src/maxwell/maxwell_constraints.c | Parity: `maxwell_zparity_constraint`, `maxwell_zparity`, `maxwell_yparity_constraint`, `maxwell_yparity`, `maxwell_zero_k_num_const_bands`, `maxwell_zero_k_set_const_bands`; RealBuild: `maxwell_parity_constraint`, `maxwell_zero_k_constraint` | — |
| src/maxwell/maxwell_eps.c | Epsilon: `maxwell_sym_matrix_eigs`; Moment: `get_moment_mesh`; Tensor: `maxwell_sym_matrix_invert`, `maxwell_sym_matrix_positive_definite`, `maxwell_sym_matrix_rotate`, `maxwell_rotation_matrix`, `check_maxwell_dielectric`, `get_mesh`, `average_eps_inv_over_mesh`, `detect_interface_via_corner_check`, `set_maxwell_dielectric`, `set_maxwell_mu` | `sym_matrix_eq` |
| src/maxwell/maxwell_op.c | Core: `assign_symmatrix_vector`; Dist: `maxwell_compute_e_from_d`, `maxwell_muinv_operator`; Half: `maxwell_vectorfield_otherhalf`, `maxwell_cscalarfield_otherhalf`, `maxwell_scalarfield_otherhalf`; Maxwell: `maxwell_compute_h_from_H`, `maxwell_operator`, `maxwell_ucross_op`; Plans: `maxwell_compute_fft`; RealBuild: `assign_t2c`, `project_c2t`, `assign_cross_t2c`, `assign_cross_c2t`, `assign_ucross_t2c`, `maxwell_compute_d_from_H`, `maxwell_compute_e_from_d_`, `maxwell_compute_H_from_e`, `maxwell_compute_H_from_B`; Target: `maxwell_target_operator1`, `maxwell_target_operator` | — |
| src/maxwell/maxwell_pre.c | RealBuild: `maxwell_simple_precondition`, `maxwell_preconditioner`, `maxwell_target_preconditioner`, `assign_crossinv_t2c`, `assign_crossinv_c2t`, `maxwell_target_preconditioner2`; Target: `maxwell_preconditioner2` | — |
| src/util/debug_malloc.c | Util: `debug_malloc`, `debug_free`, `debug_check_memory_leaks` | `check_breakpoint`, `debug_output_malloc_count` |
| src/util/mpi_utils.c | Dist: `my_global_rank`; Util: `end_divide_parallel`, `divide_parallel_processes`, `begin_global_communications`, `end_global_communications`, `mpi_begin_critical_section`, `mpi_end_critical_section` | `mpi_die`, `mpi_one_printf`, `mpi_one_fprintf`, `mpi_is_master`, `mpi_assert_equal` |
| src/util/sphere-quad.c | Moment: `spherical_quadrature_points`, `sqr`, `dist2`, `min2`, `sort_by_distance`, `main` | — |
| utils/mpb-data.c | MpbData: `add_cmplx_times_phase`, `map_data`, `handle_dataset`, `handle_cvector_dataset`, `handle_file`, `split_fname`, `main` | `usage` |

## Where the code does not do what the property says

Each of these is a theorem of the model with a concrete witness (or for all inputs). The text is the theorem's own comment.

* `Maxwell.C05_odd_refuted`: C05 (refutation of the full statement). For every odd size `n ≥ 3` the set of harmonics is not closed under negation: the index `(n-1)/2` carries the harmonic `-(n+1)/2`, whose negative is not in the basis although it is not the Nyquist harmonic (there is none for odd `n`), while the harmonic `(n-1)/2` that should be there is missing.
* `Maxwell.C07_divergence_refuted`: C07 (refutation of the full statement). On a one-point grid with `k = (0,1,1)` and the constant field `(0,0,1)` the divergence is `2πi` but `compute-field-divergence` returns 0.
* `Tensor.C08_singular_refuted`: C08 as stated ("reports an error rather than a non-finite tensor for a singular one") is false: every singular diagonal tensor is divided by zero without any check.
* `Medium.C101_function_grid_refuted`: C101 fails for a material function whose value is a material grid (mpb/epsilon.c:164-171 hands the grid to `matgrid_val`, which reads the grid of the object itself, mpb/material_grid.c:105-108): in an object the behaviour is undefined, where the same grid given directly has a value.
* `Medium.C101_default_function_grid_refuted`: C101 fails for a default material function whose value is a material grid: outside the objects the grid's values are not looked at; the tensor is that of the value 1 everywhere, or not a number for the mean.
* `Medium.C102_function_refuted`: C102 fails for material functions: one that returns media with a permeability, as the only material with one, is not noticed, and the solver works without any permeability. `force-mu?` is the remedy.
* `Invariance.C103_full_refuted`: C103, the full statement fails: in vacuum on two grid points the frequency 5/4 exists at `k = 1/4` but not at `-k`; the frequency 1/4 at `k = 1/4` does not exist at `k + 1`, the same point of the Brillouin zone; and on three grid points (odd sizes, where the kept set is lopsided) already the second frequency differs, 5/4 at `k` against 3/4 at `-k`.
* `MatGrid.C106_half_refuted`: C106 fails in the inversion-symmetric build: whenever the last dimension has more than two grid points, both functions read the array of dielectric tensors, which holds only half of the points, beyond its end (mpb/material_grid.c:608, 647), for every geometry and grid.
* `MatGrid.C106_frequencies_refuted`: C106 fails for the frequencies: a homogeneous cell with `ε = 1 + 11 u` at `u = 0`, frequency 1. After `material-grids-approx-gradient` with the step 3/11 the grid holds 0 and the dielectric constant is 1 again, but the list of frequencies holds 1/2, that of `ε = 4`.
* `MatGrid.C106_stale_refuted`: C106 fails if the grids were changed since the dielectric function was computed: the grid holds 0 (frequency 1) but the dielectric function in use is that of `ε = 4`. The difference quotient for the step 3/11 is -11/6; the value returned is 0.
* `MatGrid.C106_index_refuted`: C106 fails for an index out of range: whatever the grids, `iu < 0` or `iu` not below the number of grid values is not rejected, and the array of that many numbers is read and written outside (mpb/material_grid.c:484-488).
* `H5.C108_no_dataset_refuted`: C108, the documented behaviour fails: with a file that contains no dataset (here, only a group) the reading function, documented to return NULL, uses an uninitialised name, so that `epsilon-input-file` does not stop with "couldn't find dataset in dielectric file".
* `H5.C108_kind_refuted`: C108, reading an attribute of the other kind is not refused: every file MPB writes has a text "description", and reading it as numbers returns a buffer that was never filled.
* `Flux.C109_negative_refuted`: C109 (flux) fails when negative permittivities are allowed: for the plane wave with wavenumber 2 in vacuum, a normalised eigenvector, the group velocity is 1 but the flux of the fields is 1/2, because `get-dfield` divides by the stored `ω²` instead of `ω`; the mean of the two energies is 5/8, so that neither the flux nor the flux over the energy is the group velocity.
* `Laws.C110_negative_refuted`: C110, refuted in negative-epsilon mode: the stored "frequency" of this mode is `ω² = 4`, and the curl of the E field is `i` times the B field, neither `2i` nor `4i` times.
* `Laws.C110_h_refuted`: C110, refuted with an anisotropic permeability: the H field returned is not `μ⁻¹ B`, because `get-hfield` keeps only the transverse part. Here `B = (0,1,0)`, so `μ⁻¹B = (1/2,1,0)`, but the field returned is `(0,1,0)`; the mode is a normalised eigenvector.
* `Mat.C114_start_refuted`: C114 refuted for the band number 0: without a permeability `dot-eigenvectors` refuses it, with one it reads the column before the first.
* `Mat.C116_documented_refuted`: C116: the comment in the source, "`U == adjoint(U') D U'`", is wrong when there is a metric: for `U = (1)` and `B = (4)`, with any LAPACK that keeps its promises, the right-hand side is `1/16`.
* `MatGrid.C118_above_refuted`: C118 is false for grids with a value above 1 (values below the bound are raised to it, mpb/material_grid.c:1019, but values above are left, and NLopt refuses them): the command fails, whatever the file.
* `MatGrid.C118_uprod_refuted`: C118 is false for a grid of the kind U_PROD whose values are below 0.0001 (they are raised before NLopt starts, mpb/material_grid.c:1013-1019): the cell filled by a grid with `ε = 1 + 11 u` and `u = 0` matches a file with the value 1 exactly; after any run that returns it does not.
* `Tensor.C12_refuted`: C12 as stated ("any mesh sizes < 1 are taken to be 1", the comment of `get_mesh`) is false: with mesh size `(0, 3, 3)` the number of averaged samples is 0 while the normalisation is 9 (the size `(1, 3, 3)` it should stand for has 9 samples), and at a voxel with a detected interface but no normal `set_maxwell_dielectric` stores the zero tensor although the inverse dielectric function is the positive definite `1` or `1/2` everywhere.
* `Util.C120_adjacent_refuted`: C120 is false for two options next to each other: the second is neither used nor taken out (mpb/mpb.c:105-113: the index moves on although the arguments have moved down). With `mpb --nthread=2 --nthread=4` two threads are used, and `--nthread=4` is left for libctl, which takes it for the name of a control file.
* `Linmin.C122_zero_refuted`: C122 fails for a zero trial step: whatever the function, if the trial step is 0 the search evaluates the starting point for ever. The eigensolver passes a zero trial angle when its previous angle is 0 and the second derivative is not positive (`C122_zero_guess`).
* `Linmin.C122_limit_refuted`: C122 fails at the step limit: for a parabola, with the eigensolver's tolerances and limits, the previous angle π and the trial angle computed from the exact first and second derivative, the search evaluates the limit for ever. (The trace itself has period π, which excludes this: `Solver.C122_eigensolver_partial`.)
* `Solver.C122_previous_angle_refuted`: C122 fails in the eigensolver when the previous angle is zero: for `A = (2 -1; -1 2)`, `B = 1`, `Y = (e₀)`, `D = (e₁)` the trace is `2 - sin 2θ`; its second derivative at 0 vanishes, so the trial angle is the previous angle, and the search never ends.
* `MpbData.C123_long_name_refuted`: C123 fails for long dataset names: a name of 298 characters given with `-d` is written beyond the end of an array of 300 characters, for a file that is otherwise ready to be transformed.
* `Parity.C15_z_refuted`: C15 refuted in general: for a band with different amplitudes at mirrored planewaves (here a `1×1×3` grid, amplitudes `1` at `z` index 1 and `2` at index 2) the reported z parity is `2`, outside `[-1, 1]`.
* `Parity.C17_kernel_mu_refuted`: C17 is false in a crystal with a position-dependent permeability: the constant band set at `k = 0` is not in the kernel of the Maxwell operator, although its frequency is reported as zero.
* `Solver.C20_zero_bands_refuted`: C20 fails for zero bands (which `solve_kpoint` accepts) when the block size is negative, as it is by default (-11): the number of blocks is zero and `init_params` divides by it, mpb.c:433-434.
* `Mat.C22_aApbB_alias_refuted`: The documentation "A and B may be equal" is wrong: `2 A + 1 A` gives `4 A`.
* `Mat.C23_gemm_empty_refuted`: The missing case is wrong: with `k = 0` the product is empty and `C := b C` is documented, but `C` is set to zero.
* `Mat.C23_herk_empty_refuted`: The missing case is wrong for `herk` too.
* `Linmin.C24_limits_refuted`: C24 (limits) fails in general: with the lower limit 1/2 the search can ask for an evaluation at the step 0, below the limit: if the first trial step is higher than the start and the relative tolerance is met, the search goes back to the starting point.
* `Linmin.C24_nan_refuted`: C24 (no NaN) fails: for the polynomial `nanPoly`, with the eigensolver's own tolerances and limits and the initial guess 1/2, the second call of the search takes the square root of a negative number. After the first evaluation (sufficient decrease, but a slope between the tolerance and the sufficient-decrease slope) the search stays in its first stage; the second trial point is lower but without sufficient decrease, so the modified function is used, whose slope at the best point has the wrong sign.
* `Solver.C26_newton_lagrange_refuted`: The second derivative used for the Newton guess is wrong in the presence of a Lagrange term (it misses `-3 λ tr(Y† L Y)`): for the 1×1 problem `A = B = L = Y = D = 1`, `λ = 1` it is not the second derivative of the objective.
* `Solver.C26_fallback_refuted`: The Taylor expansions meant for "c or s is small" are also used when neither is: the tests compare `c` with `1e-4 s` without absolute values. For `A = B = Y = D = 1` and `θ = 3π/4` the moved block is zero, so there is no Rayleigh quotient, `|cos θ|` and `|sin θ|` exceed 1/2, and still a value is returned.
* `Util.C27_overflow_refuted`: C27 fails for large runs: with 65536 processes in 65536 groups the product `rank * numgroups` overflows `int`.
* `Util.C27_serial_refuted`: C27 fails without MPI: there is one process, so one group is the only possible division, but the check (mpi_utils.c:87) is inverted: asking for one group ends the program and every other request is accepted.
* `Util.C28_nested_refuted`: C28 fails for nested brackets: after `divide; begin; begin; end; end` the program communicates with the world, while the stack semantics gives the group; and the group's communicator is lost (never freed).
* `Util.C28_divide_inside_refuted`: C28 fails when the processes are divided again inside a bracket: closing the bracket drops the new group.
* `Util.C29_two_sections_refuted`: C29 holds of each section separately but fails for two sections in a row, even with different tags and synchronous sends: rank 0 does not wait at the start of the second section for the others to leave the first one, so two processes are in critical sections at once.
* `Util.C30_unnoticed_refuted`: C30 is not exact beyond that: an overrun that happens to write the byte already there goes unnoticed, and so does freeing twice a block whose address has been handed out again in between.
* `IO.C33_refuted`: C33 fails for names in which `.h5` also occurs earlier: only the first occurrence is looked at, so a name that does end in `.h5` gets a second suffix, and the name of the file created does not address that file.
* `IO.C34_scalar_refuted`: C34 fails for scalar fields written with a wave vector (as `output-field` does for complex scalar fields): on a line of two points with `k = 1/2` the second point should be multiplied by `exp(i pi/2) = i`, but gets the first point's phase, 1; and memory behind the field is changed.
* `Half.C35_idle_refuted`: C35 is false when a process holds no rows (more processes than rows; FFTW then sets `local_y_start` to 0): the output of a vector field kills that process in any grid, and with it the run; the output of a scalar field does so in three dimensions.
* `MpbData.C38_direction_refuted`: C38 fails for some directions: the axis comes out reversed. On the cubic lattice with `-e -1,0,0` the first output vector is `(1,0,0)`: opposite to the direction asked for.
* `MpbData.C38_plane_refuted`: C38 fails for some directions: division by zero. On the cubic lattice with `-e 1,-1,0` the program divides by zero.
* `Field.C41_objects_refuted`: C41, refuted for the energy in objects and for field integrals of the inversion-symmetric build: whatever the uninitialised counter holds, the result is wrong for the field `5, 2, 2` (with an object that fills the cell).
* `Field.C41_integrate_refuted`: C41, refuted for complex scalar fields: in the inversion-symmetric build the value at a mirror point is not conjugated. Integrating `5, 2+i, 2-i` gives `9 + 2i` instead of `9`.
* `Field.FixPhase.C43_no_band_refuted`: C43, refuted for fields that do not belong to a band: after `get-epsilon` the band number is 0; a field loaded with `field-load` keeps it, and then `fix-field-phase` writes before the start of the eigenvector array.
* `Field.FixPhase.C43_canonical_refuted`: C43, refuted when the squares of the components sum to zero (a circularly polarised field): `(1, i, 0)` and its multiple `i (1, i, 0)` are mapped to different fields.
* `Field.FixPhase.C43_mpi_refuted`: C43, refuted with MPI: the index of a component is offset by a number of *points*, so the points found by two processes can get the same global index; with the field `(0,0,-1 | 0,1,0)` on two processes the field and its negative are mapped to different fields.
* `Session.C44_squared_refuted`: C44, refuted: compute-field-squared without a field writes through a NULL pointer.
* `Session.C44_squared_scalar_refuted`: C44, refuted: compute-field-squared on epsilon reports an error and replaces epsilon by nonsense, which output-field then (band 0) describes with a frequency from outside its array; or after `solve-kpoint` get-energy-point accepts it.
* `Session.C44_efield_refuted`: C44, refuted: a get-efield that fails (band 5 of 1) turns the loaded D field of band 1 into E, and the next commands use it.
* `Session.C44_divergence_refuted`: C44, refuted: compute-field-divergence before init-params dereferences a NULL pointer.
* `Session.C44_load_band_refuted`: C44, refuted: after get-dfield 2, a stored field (number 7, any origin) is loaded; fix-field-phase multiplies the eigenvector of band 2 with a phase found from the stored field, and output-field labels it as band 2.
* `Session.C44_load_crash_refuted`: C44, refuted: after get-epsilon the band is 0, and fix-field-phase of a stored field writes before the start of the eigenvectors; output-field of a stored field reads before the start of the frequencies.
* `Session.C44_nonbloch_refuted`: C44, refuted: cvector-field-nonbloch! makes a vector field of epsilon.
* `Session.C44_groupvel_refuted`: C44, refuted: compute-group-velocities without a solution fails but drops the field that was loaded.
* `Session.C44_dot_refuted`: C44, refuted: with a permeability dot-eigenvectors overwrites the field that is loaded; it is then output as if it were valid.
* `Session.C44_numbands_refuted`: C44, refuted: if num-bands is reduced between init-params and solve-kpoint, get-dfield accepts bands for which there is no frequency.
* `Session.C44_kindex_refuted`: C44, refuted: with a k-point index set by hand get-dfield runs before solve-kpoint.
* `Session.C44_symmetry_refuted`: C44, refuted: compute-symmetry of a band that does not exist (5 of 1) returns the overlap of the D field that happens to be loaded.
* `Session.C44_velocity_refuted`: C44, refuted: compute-1-group-velocity returns an uninitialised number if there is no solution yet, and reads outside of the eigenvectors for a band that does not exist.
* `Session.C44_dominant_refuted`: C44, refuted: get-dominant-planewave answers before there is a solution.
* `Session.C44_epspoint_refuted`: C44, refuted: get-epsilon-point before init-params dereferences a NULL pointer.
* `Workspace.C45_mu_refuted`: C45, refuted. A second call that only differs in that the materials now have a permeability keeps the old work space, for every problem (with up to 9 work matrices): the work matrix it needs in addition is missing; with more than one block there is also no matrix for the inverse permeability times the bands, so that `deflation.BY = H`.
* `Workspace.C45_overflow_refuted`: C45, refuted. With a permeability and eigensolver-nwork = 10 or more (it is reduced to 10 first), the eleventh work matrix is stored after the end of the array.
* `Field.C47_negative_refuted`: C47, refuted in negative-epsilon mode: for this eigenvector of eigenvalue 4 the electric energy is 1/4.
* `Names.C48_loaded_refuted`: C48 fails for fields that were kept in variables: the fields `f1` of band `b1` and `f2` of band `b2`, copied when they were current, and loaded and written later, are written to the same file, the one with the number of the band that was current last.
* `MatGrid.C49_beyond_refuted`: C49 fails beyond the upper faces: for every array and every point with `1 + 1/nx ≤ rx ≤ 2` the array is read before its start.
* `MatGrid.C49_opposite_refuted`: C49 fails just beyond the upper faces: for `1 < rx < 1 + 1/nx` the code returns, for every array, the value at the opposite face `rx = 0`.
* `MatGrid.C49_example_refuted`: Concretely: two pixels with values 0 and 1. At `x = 1.1` the code returns 0, the mirror-extended value is 1; at `x = 1.5` it reads outside the array. Inside it interpolates: at `x = 1/2` the value is 1/2.
* `MatGrid.C50_nothing_refuted`: C50 fails where an object of the "nothing" material shows a default material grid: the dielectric constant depends on the grid, with derivative 11, but nothing is added to the gradient.
* `MatGrid.C50_product_zero_refuted`: C50 fails for a product grid whose value is 0: the derivative of the dielectric constant is 11, and the code divides by 0.
* `MatOpt.C52_history_refuted`: C52 fails for the TE/TM objective: for the last two variables the entry of the gradient is added to what was there before. A second evaluation at any point `u'` gives the sum of the first evaluation's entry and of the derivative at `u'`; and the first evaluation itself adds to whatever was in the memory from `malloc`.
* `MatOpt.C52_single_refuted`: C52 fails for a single variable: the first evaluation with a gradient calls `memset` with a negative size.
* `MatOpt.C52_example_refuted`: The concrete case: one grid with two numbers; the derivatives of the frequencies do not depend on anything but the parity. Two evaluations at the same point give different gradients.
* `MatGrid.C54_mirror_refuted`: C54 fails above the range: a number `u` between 1 and 2 becomes `u - 1`, the periodic and not the mirror image (unless `u = 3/2`).
* `MatGrid.C54_example_refuted`: The concrete case: 0.9 with a perturbation of 0.4 becomes 0.3, not 0.7.
* `Brillouin.C57_minimal_refuted`: C57 (refutation of the full statement). For a skew lattice the result need not lie in the first Brillouin zone.
* `Phase.C60_real_build_refuted`: C60 (full statement for the real-scalar build, refuted). `scale-eigenvector` in `mpbi` does not reject all factors it cannot represent: the purely imaginary factor `i` is accepted and sets the band to zero.
* `Parity.C63_nyquist_refuted`: C63 fails at the Nyquist index: with `nz = 2` the amplitudes of planewave `z = 1` are paired with themselves, although the reflection of its wavevector is a different vector.
* `Parity.C63_odd_refuted`: C63 also fails for every odd `nz ≥ 3`, which has no Nyquist index: the planewave `(nz-1)/2`, of harmonic `-(nz+1)/2`, is paired with a planewave of harmonic `-(nz-1)/2`, on the same side of the mirror.
* `Parity.C63_split_refuted`: C63 refuted for the modes: a structure symmetric under the mirror, of scalar permittivity, has modes whose even part (as the constraint of run-zeven takes it) is not a mode.
* `Mat.C64_aXpbY_alias_refuted`: 
* `Mat.C64_slice2_bounds_refuted`: C64: the range of destination columns is not checked: an accepted call may write outside `U`.
* `Workspace.Fft.C65_groupvel_refuted`: C65, refuted: with a permeability and blocks of more than 20 bands (e.g. eigensolver-block-size 0 and more than 20 bands), the first block of compute-group-velocity-component writes all its bands into the array for 20.
* `Workspace.Fft.C65_dot_refuted`: C65, refuted: with a permeability and blocks of more than 20 bands, dot-eigenvectors of more than 20 bands writes past the scratch array.
* `Velocity.C67_changes_solution_refuted`: C67 fails with a permeability when all bands are one block (the default for up to eleven bands): then the stored eigenvectors are replaced by `μ⁻¹` applied to them, for every input.
* `Velocity.C67_repeat_refuted`: C67 fails, concretely: one planewave in a homogeneous medium with `μ = 2`, one band. Calling `compute-group-velocity-component` twice for the same direction gives two different answers, 1 and then 1/4.
* `Eig.C68_approx_refuted`: C68 fails for the approximate line minimisation (`EIGS_FORCE_APPROX_LINMIN`): with `A = diag(1, 0)` and the starting vector `(3/5, 4/5)` the reported trace goes from 9/25 up to 4/5. The trial step goes along the gradient uphill, and if the curvature found there is negative the block stays at the trial point.
* `Eig.C68_stale_refuted`: C68 (slope) fails when the approximate line minimisation gives up: the block is put back where it was, but not the inverse of its overlap matrix, so that the slope handed to the exact line minimisation is not the derivative of the trace: with `A = diag(1, 0)`, `Y = (3/5, 4/5)` the slope along the normalised direction `(4/5, -3/5)` is 24/25, but 96/125 is passed.
* `Velocity.C69_mu_refuted`: C69 fails for an anisotropic permeability. One planewave in the homogeneous medium with `ε = 1` and inverse permeability `[[1, 1/2, 0], [1/2, 1, 0], [0, 0, 1]]`, at `k = (1, 0, 0)`, direction `y`. The band of frequency `ω(t) = sqrt(t² - t + 1)` at `(1, t, 0)` satisfies every hypothesis except that `μ⁻¹ B` be transverse; its derivative is -1/2, and the computed group velocity component is 0.
* `MatGrid.C71_mirror_refuted`: C71 fails: for every grid, the value at a point is that at its mirror images in the planes `x = 0`, `y = 0` and `z = 0`, so that a default material grid can only give structures with three mirror planes.
* `MatGrid.C71_example_refuted`: The concrete case: a grid of two pixels, 0 on the left and 1 on the right. A block with this grid that fills the cell (of size 1) has the value 0 at `x = -1/4` and 1 at `x = 1/4`; with the grid as default material both values are 0.
* `MatOpt.C73_mingap_refuted`: C73 fails for `material-grids-mingap`: for every structure `x`, the point `(x, f1, 0)`, with any allowed `f1 > 0`, is allowed and minimises the objective, which is `-2` there; nothing about the structure is optimised.
* `MatOpt.C73_example_refuted`: The concrete case: two structures, with the gaps 2/3 and 1; both are optimal for `material-grids-mingap`, with suitable `f1`, `f2`.
* `Eig.C74_negative_refuted`: C74 fails for operators with negative eigenvalues: if `A ≤ -B` the run never ends normally, whatever the tolerance, the flags and the starting block, because the convergence test compares with the sum of the last two traces, not with its absolute value.
* `Eig.C76_exact_start_refuted`: C76 fails for the other half of what a user expects, that a solution handed to the solver comes back: if the starting block is an exact solution (`A Y = B Y S`), the run ends in an abort (in exact arithmetic). The tolerance is not looked at in the first iteration, and the search direction, which is then zero, is divided by its norm.
* `Target.C77_two_work_arrays_refuted`: C77, the full claim on work space is false: with two work arrays the eigensolver's search direction `D` is the array `X` (slot 2), and its call `A(D, G, Adata, 0, X)` (eigensolver.c:656) always fails the `CHECK` of the targeted operator, on every non-empty grid.
* `Target.C77_nearest_refuted`: C77, the documented claim ("the states whose frequencies have the smallest absolute difference with `target-freq`") is false: with modes at the frequencies 1/2 and 7/5 and the target 1, the mode at 7/5 is nearer, but the lowest mode of the targeted problem, however it is found, is the one at 1/2.
* `Davidson.C80_window_refuted`: C80: without that condition the window can stop short of the target: one band, the eigenvalues 1, 1, 5 and the target 5.
* `Davidson.C81_small_space_refuted`: C81 is false, first: a basis of at least two blocks is always formed. When twice the number of bands exceeds the dimension of the space (of the constraint, if there is one), every run aborts, whatever the initial block, although the problem is well posed.
* `Davidson.C81_exact_start_refuted`: C81 is false, second: a run that starts from an exact solution aborts. (`K 0 = 0` holds for all of mpb's preconditioners, C78.)
* `Objects.C82_mu_refuted`: C82 without the restriction is false of the code: after `(get-mu)` the current field is not a field to the program, so `(field-copy cur-field)` ends it, although get-mu leaves the permeability there and the specification allows the copy (mpb/field-smob.c:142-160 lacks the letter 'm' that get-mu sets, mpb/medium.c:73).
* `Objects.C82_label_refuted`: `field-map!` does not always give its result a letter: here the copy of an energy density is overwritten with the x components of a vector field, and it is still called an energy density (mpb/field-smob.c:373-386).
* `MatGrid.C86_flat_refuted`: C86 fails in a direction that has a size but one grid point. The dielectric function of the only grid point is taken at `x = -1/2`, where the grid is; `material_grids_addgradient` looks at `x = 0`, where it is not. The frequency of the band has derivative -11/2, and nothing is added.
* `MatGrid.C86_negative_refuted`: C86 fails when negative dielectric constants are allowed (`negative-epsilon-ok?`): the list of frequencies then holds `ω²` (mpb/mpb.c:833-834), and `material_grids_addgradient` uses it as `ω`. Here `ω² = 1/4`: the derivative of `ω²` is -11/16, that of `ω` is -11/16, and the number added is -11/8.
* `MatGrid.C86_half_refuted`: C86 fails in the inversion-symmetric build. The call should add the contributions of the four grid points. Whatever the uninitialised index holds, it adds those of the three stored points once, or twice.
* `MatGrid.C86_mesh_refuted`: C86 fails with the default mesh of three points in each pixel. The slabs of the grid lie between the grid points, and the averaged inverse dielectric constant is `(1 + 2/ε)/3`, `ε = 1 + 11 u`; the frequency of the mode changes with `u` at the rate `f' ≠ 0`. `material_grids_addgradient` looks only at the grid points, where there is vacuum, and adds nothing.
* `MatGrid.C87_half_refuted`: C87 fails in the inversion-symmetric build when the file does not have that symmetry. The structure is homogeneous (so symmetric) with `ε = 1 + 11 u`, at `u = 0`, and the file holds 1, 1, 1, 3. The objective is `F(u) = (3 (11 u)² + (11 u - 2)²)/4`, whose derivative is -11; the gradient returned is 0: the mirror point is given the weight of the stored point (mpb/material_grid.c:960-965 uses the `scalegrad` of 926).
* `MatGrid.C87_mesh_refuted`: C87 fails with the default mesh: the slabs of `C86_mesh_refuted`, and a file with the dielectric constant 1 everywhere. The objective changes with `u` at the rate 33/8, the gradient returned is 0.
* `MatOpt.C90_tetm_band_refuted`: The check of `material-grids-min-tetm-gap` is not enough: it accepts band numbers below 1, for which the frequencies are read outside their list (mpb/material_grid_opt.c:98).
* `MatOpt.C90_above_refuted`: C90 fails if a grid holds a number above 1 (only the lower bound is enforced, mpb/material_grid_opt.c:305-311).
* `MatOpt.C90_uprod_refuted`: C90 fails for a grid of the kind U_PROD that holds 0: the number is raised to 1e-4 after the frequencies were computed, so that the constraints are those of another structure.
* `MatOpt.C90_stale_refuted`: C90 fails if the grids were changed since the dielectric function was computed (for example by `randomize-material-grid!`): the bands of the old structure are used, mpb/material_grid_opt.c:286-301, before the first call of `material_grids_set` and `reset_epsilon`.
* `MpbData.C91_named_refuted`: C91, `-d`, refuted. "By default, mpb-data operates on all of the MPB-produced datasets in the file, but this can be changed via the -d option" (utils/mpb-data.1:41-43): but the vector field is transformed and written whatever name is given.
* `MpbData.C91_transpose_refuted`: C91, `-T`, refuted. For a one-dimensional dataset of two values, `-T` alone ("transpose the first two dimensions") writes a dataset with one value: the other is lost.
* `Run.C92_mpb_split_refuted`: C92, `mpb-split`, refuted. Whatever the number of processes and the k-points, `mpb-split` starts the first chunk twice: what it prints has the first k-points twice, with the same numbers. `out i`: the k-points solved by a process, with their numbers.
* `Run.C92_randomize_refuted`: C92, `randomize-fields?`, refuted. If it is set ("whether to always randomize"), the fields are randomised between the solution of a k-point and the band functions: with a band function that leaves the fields alone and is called for a band, the eigenvectors it finds are not those the solver computed.
* `Run.C92_dpwr_refuted`: C92, `output-dpwr-in-objects`, refuted. With a function without argument, which is to be called where a band has its energy in the objects, nothing is called if it is the second band.
* `Run.C92_find_k_split_refuted`: C92, `find-k` in a split run, refuted. In the second of two jobs `find-k` calls no band function at all: its runs have one k-point, which is in the share of the first job.
* `Run.C92_find_k_combine_refuted`: C92, `combine-band-functions` in `find-k`, refuted. A combined function without argument is called for the first band only, while by itself it is called for each.
* `Kpoint.C93_sorted_refuted`: C93: the reported frequencies of a k-point need not increase, nor be close to the lowest ones. Here the operator has eigenvalues 1, 2, 5 and 6, the block size is 1, and two bands are asked for; the first one reported is the lowest of the fields that its start reaches, the second one lies below it.
* `Kpoint.C93_zero_k_mu_refuted`: C93: at k = 0 with a permeability, the constraints of the second block do not make a field orthogonal to the bands of the first one. Here they turn the field (1, 0) into a multiple of the band that has been found already.
* `Dist.C94_dominant_groups_refuted`: C94 fails for the dominant plane wave when the processes are divided into groups: in every group but the first, whatever the bands are, the processes broadcast from a process that is not in the group.
* `Dist.C94_dominant_idle_refuted`: C94 fails for the dominant plane wave when a process has no plane wave: it reads the first entry of an empty array.
* `Invariance.C95_setup_refuted`: C95, set-up, refuted: two layers of dielectric constants 4 and 1 on two grid points, averaged over a mesh of two. With a lattice constant of 1 the interface pixel gets the inverse of the arithmetic mean along the layers, 2/5; with a lattice constant of one ten-millionth -- the same structure in other units -- the dipole moment, which is a length, falls below the threshold and the pixel gets the mean of the inverses, 5/8. (The threshold `SMALL` is compared with the length of the unnormalised normal, maxwell_eps.c:653.)
* `Invariance.C97_rotation_refuted`: C97, the full statement fails: two grid points with a positive definite permeability that has an xy component of opposite sign at the two points, at zero wavevector, and the same crystal with the axes x and y exchanged. The frequencies agree (`C97_frequencies`), but no norm-keeping one-to-one linear map takes the modes of one to those of the other: of the constant field the code keeps only the components along two fixed axes, and modes of frequencies 0 and 1 are orthogonal in the first orientation but not in the second.

## Axioms of each theorem

Output of `#print axioms` for the 645 theorems of MANIFEST.json, grouped. All theorems not listed under another group depend on exactly `propext`, `Classical.choice`, `Quot.sound` (616 theorems).

* no axioms: `Solver.C21_chain_order`; `Util.C27_overflow_refuted`.
* only `propext`: `Solver.C21_chain_all`; `Util.C27_serial_refuted`; `Util.C28_nested_refuted`, `Util.C28_divide_inside_refuted`; `Util.C30_unnoticed_refuted`.
* only `Quot.sound`, `propext`: `Maxwell.C05_symmetric_partial`, `Maxwell.C05_odd_refuted`; `Maxwell.C07_real_build_out_of_bounds`; `Run.C119_collected`; `Solver.C20_zero_bands_refuted`; `Util.C27_bound`; `Util.C28_no_double_free`; `Field.C41_layout`; `Scheme.C55_out_of_range`; `Scheme.C56_gaps`; `Scheme.C58_zero_diverges`, `Scheme.C58_optimize_zero_diverges`; `Parity.C63_odd_refuted`; `Workspace.Fft.C65_operators`, `Workspace.Fft.C65_groupvel_partial`, `Workspace.Fft.C65_groupvel_refuted`, `Workspace.Fft.C65_dot_partial`, `Workspace.Fft.C65_dot_refuted`; `Run.C92_run_partial`, `Run.C92_any`, `Run.C92_no_bands`, `Run.C92_reset`.
* `propext`, `Classical.choice`, `Quot.sound`: every other theorem of C01, C02, C03, C04, C05, C06, C07, C08, C09, C10, C100, C101, C102, C103, C104, C105, C106, C107, C108, C109, C11, C110, C111, C112, C113, C114, C115, C116, C117, C118, C119, C12, C120, C121, C122, C123, C124, C13, C14, C15, C16, C17, C18, C19, C20, C21, C22, C23, C24, C25, C26, C27, C28, C29, C30, C31, C32, C33, C34, C35, C36, C37, C38, C39, C40, C41, C42, C43, C44, C45, C46, C47, C48, C49, C50, C51, C52, C53, C54, C55, C56, C57, C58, C59, C60, C61, C62, C63, C64, C66, C67, C68, C69, C70, C71, C72, C73, C74, C75, C76, C77, C78, C79, C80, C81, C82, C83, C84, C85, C86, C87, C88, C89, C90, C91, C92, C93, C94, C95, C96, C97, C98, C99.
