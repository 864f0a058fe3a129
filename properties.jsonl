{"id": "C01", "title": "Work is divided over processes as an exact balanced partition", "statement": "When N tasks are divided over P processes, each task belongs to the half-open range of exactly one process, the ranges follow each other in rank order without gap or overlap from 0 to N, the range lengths differ by at most one, and asking which process owns a task returns exactly the process whose range contains it.", "quantifier": "every task count N, every process count P >= 1, every task index", "why_tests_cant": "A test fixes a few (N,P) pairs; the integer-division rounding must work for all of them, including N < P and N = 0.", "anchors": ["jdftx/core/MPIUtil.cpp: TaskDivision::init, TaskDivision::whose", "jdftx/core/MPIUtil.h: TaskDivision::start/stop/isMine"]}
{"id": "C02", "title": "Threaded loops visit every job exactly once", "statement": "A threaded launch over nJobs jobs on n threads hands out index ranges that together contain every job index exactly once and no other index.", "quantifier": "every job count, every thread count >= 1", "why_tests_cant": "Rounding of (t*nJobs)/n must be right for every pair; a missing or doubled index at one boundary changes physical results silently.", "anchors": ["jdftx/core/Thread.h: threadLaunch, threadedLoop"]}
{"id": "C03", "title": "Threaded accumulation does not depend on the schedule", "statement": "A threaded accumulation (sum over jobs where each thread adds its own partial sum to a shared total under a lock) returns the sum over all jobs, whatever the order in which the threads run, interleave and take the lock.", "quantifier": "every interleaving of the threads' steps, every thread count, every job count, every summand function", "why_tests_cant": "A test observes one schedule per run.", "anchors": ["jdftx/core/Thread.h: threadedAccumulate, threadedAccumulate_sub", "jdftx/core/BlasExtra.cpp: eblas_zdotc_sub, eblas_ddot_sub"]}
{"id": "C04", "title": "Suspending operator threading prevents nested threading", "statement": "Between a suspend and the matching resume of operator threading no threaded operator uses more than one thread, so that threaded regions never nest.", "quantifier": "every history of suspend, resume and threaded launches, nested to any depth", "why_tests_cant": "The failure needs a particular nesting of explicitly threaded launches inside a suspended section; tests exercise a handful of call sites.", "anchors": ["jdftx/core/Thread.h: threadLaunch", "jdftx/core/Thread.cpp: suspendOperatorThreading, resumeOperatorThreading, shouldThreadOperators"]}
{"id": "C05", "title": "Threaded scatter-add is schedule independent exactly when target indices do not collide", "statement": "y[index[i]] += a*x[i] executed by several threads gives the sequential result for every interleaving of their memory accesses when the target indices are pairwise distinct; gather (y[i] += a*x[index[i]]) does so without any condition.", "quantifier": "every index list, every thread count, every interleaving of individual reads and writes", "why_tests_cant": "Races show only under particular schedules and sizes above the threading cutoff.", "anchors": ["jdftx/core/BlasExtra.cpp: eblas_scatter_axpy_sub, eblas_gather_axpy_sub, eblas_*_axpy launcher"]}
{"id": "C06", "title": "Chunked parallel file transfers cover the buffer exactly", "statement": "Reading or writing nmemb items of a given size in blocks transfers every byte of the buffer exactly once, in order, with each single transfer below the transfer-size limit of the message library.", "quantifier": "every item count, every item size from 1 to the limit", "why_tests_cant": "The interesting cases are arrays above 1 GB, not available to unit tests.", "anchors": ["jdftx/core/MPIUtil.cpp: MPIUtil::fread, MPIUtil::fwrite"]}
{"id": "C07", "title": "Collective error check gives every process the same verdict and text", "statement": "After a collective error check either no process recorded an error and all continue, or every process stops with the identical message: the concatenation of the messages of all processes in rank order.", "quantifier": "every process count, every combination of per-process messages (including empty ones)", "why_tests_cant": "Needs all combinations of failing ranks; a mismatch deadlocks a run.", "anchors": ["jdftx/core/MPIUtil.cpp: MPIUtil::checkErrors"]}
{"id": "C08", "title": "State files do not depend on the number of processes", "statement": "Band-diagonal data and matrices written by a job with P processes and read back by a job with P' processes give every state its original data, and the file content does not depend on P or on the order in which the processes write.", "quantifier": "every number of states, matrix sizes, writer and reader process counts, every interleaving of the writes", "why_tests_cant": "A test would need runs with many process counts and schedules.", "anchors": ["jdftx/electronic/ElecInfo.cpp: ElecInfo::read, ElecInfo::write", "jdftx/core/MPIUtil.cpp: TaskDivision"]}
{"id": "C09", "title": "Memory pool never hands out live memory and its accounting is exact", "statement": "At every point of every history of allocations and releases, the block returned by an allocation is at least as large as requested and is disjoint from all blocks still in use, the pool's totals equal the sums over in-use and cached blocks, releasing an unknown block is rejected, and the pool fails only if the system allocator fails with nothing left in the cache.", "quantifier": "every history of alloc/free requests of any sizes, every behaviour of the system allocator, every cache limit", "why_tests_cant": "Depends on the whole history and on allocator failures that tests cannot force.", "anchors": ["jdftx/core/ManagedMemory.cpp: MemCache::alloc, MemCache::free, MemCache::allocRaw"]}
{"id": "C10", "title": "Command processing order respects every requirement", "statement": "For every set of registered commands, start-up either reports an unknown or cyclic requirement or produces an order in which each input command is processed exactly once and only after all the commands it requires have been processed.", "quantifier": "every dependency graph of commands, every input file", "why_tests_cant": "The dependency graph grows with each command; tests run selected inputs only.", "anchors": ["jdftx/commands/parser.cpp: ProcessedCommandMap, parse, safeProcess", "jdftx/commands/command.h: Command::require"]}
{"id": "C11", "title": "Input files may list commands in any order", "statement": "Two input files with the same commands whose relative order agrees within each dependency level are processed in the identical sequence; in particular moving a command before or after any command of a different dependency level changes nothing.", "quantifier": "every input file and every such reordering", "why_tests_cant": "Quantifies over all permutations of all inputs.", "anchors": ["jdftx/commands/parser.cpp: parse (pass loop)"]}
{"id": "C12", "title": "Mutually exclusive commands are always rejected together", "statement": "If a command declares another one forbidden and both occur in the input, an error is reported, whatever their order in the file.", "quantifier": "every input file, every declaration of forbidden commands", "why_tests_cant": "Order- and section-dependent: detection looks only at commands processed so far.", "anchors": ["jdftx/commands/parser.cpp: ProcessedCommandMap (mutual forbids), safeProcess"]}
{"id": "C13", "title": "Environment substitution terminates and resolves every reference", "statement": "Substituting ${NAME} references in an input line terminates and leaves no reference in the line, each reference being replaced by the value of that environment variable.", "quantifier": "every line, every environment", "why_tests_cant": "Some environments (values that themselves contain references) are never present in tests.", "anchors": ["jdftx/commands/parser.cpp: environmentSubstitute"]}
{"id": "C14", "title": "All processes see the identical command list", "statement": "After the head process reads the input and broadcasts it, the list of commands and parameters seen by every other process equals the one seen by the head.", "quantifier": "every command list the reader can produce", "why_tests_cant": "Serialisation by separators fails only for particular characters.", "anchors": ["jdftx/commands/parser.cpp: readInputFile / parse broadcast"]}
{"id": "C15", "title": "Line reading: comments, continuation and blank lines", "statement": "A logical input line equals the concatenation (separated by blanks) of its physical lines with comments and surrounding white space removed, a physical line ending in a backslash continuing into the next, and every physical line of the file is consumed by exactly one logical line.", "quantifier": "every text file", "why_tests_cant": "Infinite input space.", "anchors": ["jdftx/commands/parser.cpp: readLine"]}
{"id": "C16", "title": "Include cycles are detected", "statement": "Reading an input file with nested includes terminates: either the contents are expanded in textual order or an inclusion cycle is reported.", "quantifier": "every finite set of files and every include graph on it", "why_tests_cant": "Termination over all graphs.", "anchors": ["jdftx/commands/parser.cpp: readInputFile (include stack)"]}
{"id": "C17", "title": "Each citation is listed once with all its reasons", "statement": "The list of citations printed at the end shows each cited paper once, with every reason recorded for it, independent of the order in which the citations were added.", "quantifier": "every history of citation additions", "why_tests_cant": "Grouping depends on the insertion history.", "anchors": ["jdftx/core/Util.cpp: Citations::manage, Citations::add, Citations::print"]}
{"id": "C18", "title": "Enumeration names round-trip", "statement": "For every option enumeration, reading the printed name of an option gives back the option, and names outside the list are rejected.", "quantifier": "every enumeration map with distinct names and values, every string", "why_tests_cant": "The property ranges over every table and every input string.", "anchors": ["jdftx/core/Util.h: EnumStringMap"]}
{"id": "C19", "title": "Grid indices and grid coordinates are in bijection", "statement": "The linear index of a real-space or reciprocal-space grid point determines its coordinates and vice versa: every valid coordinate has an index in range, different coordinates have different indices, every index is reached, and negative reciprocal coordinates wrap consistently.", "quantifier": "every grid size, every coordinate", "why_tests_cant": "Quantifies over all grid sizes and points.", "anchors": ["jdftx/core/GridInfo.h: fullRindex, fullGindex, halfGindex, wrapGcoords"]}
{"id": "C20", "title": "Thread-split grid loops visit each grid point once with its own coordinates", "statement": "A grid loop restricted to an index range executes its body for exactly the indices of the range and each time with the coordinates that belong to that index, for the real-space, the full and the half reciprocal-space loops.", "quantifier": "every grid size, every index range", "why_tests_cant": "Empty ranges and row or plane boundaries at arbitrary split points.", "anchors": ["jdftx/core/LoopMacros.h: THREAD_rLoop, THREAD_fullGspaceLoop, THREAD_halfGspaceLoop"]}
{"id": "C21", "title": "Changing to a finer grid and back is lossless", "statement": "Fourier-resampling a field to a finer grid and back returns the original coefficients; resampling keeps exactly the coefficients representable on both grids and zeroes all the others.", "quantifier": "every pair of grid sizes, every field", "why_tests_cant": "Nyquist and odd/even size combinations; infinite input space.", "anchors": ["jdftx/core/Operators_internal.h: changeGrid_calc, changeGridFull_calc", "jdftx/core/Operators.cpp: changeGrid"]}
{"id": "C22", "title": "Real fields survive conversion between half and full reciprocal space", "statement": "Converting the half reciprocal-space representation of a real field to the full complex one and taking the real part gives the field back, and the full representation has the conjugate symmetry of a real field.", "quantifier": "every grid size, every half-space field that represents a real field", "why_tests_cant": "All sizes, all fields; the plane of self-conjugate points is written twice.", "anchors": ["jdftx/core/Operators_internal.h: RealG_calc, ImagG_calc, ComplexG_calc, COMPUTE_fullRefIndices"]}
{"id": "C23", "title": "Inner products computed on half reciprocal space equal those on full space", "statement": "The dot product and the sum of real fields evaluated from the half-space coefficients equal the values over the full reciprocal grid.", "quantifier": "every grid size, every pair of real fields", "why_tests_cant": "Odd sizes and size-one dimensions change which planes are double counted.", "anchors": ["jdftx/core/Operators.cpp: dot(ScalarFieldTilde), sum(ScalarFieldTilde), nrm2(ScalarFieldTilde)"]}
{"id": "C24", "title": "Automatically chosen FFT box is valid", "statement": "The automatically determined grid dimensions are commensurate with all the symmetries, at least as large as required by the cutoff, even, and have only the prime factors 2, 3, 5, 7; and the search terminates.", "quantifier": "every symmetry group, every minimum size", "why_tests_cant": "Number-theoretic property over all groups and sizes.", "anchors": ["jdftx/core/GridInfo.cpp: GridInfo::initialize (auto S), processSb", "jdftx/core/Util.cpp: fftSuitable"]}
{"id": "C25", "title": "FFT suitability test is exact", "statement": "A positive integer is declared suitable exactly if it is a product of powers of 2, 3, 5 and 7, and the test terminates on every integer.", "quantifier": "every integer", "why_tests_cant": "Infinite domain; termination.", "anchors": ["jdftx/core/Util.cpp: fftSuitable"]}
{"id": "C26", "title": "Lattice reduction returns an equivalent lattice and terminates", "statement": "Reducing the lattice vectors terminates, and the result spans the same lattice as the input: it equals the input times an integer matrix of determinant one, whose inverse is also returned correctly, and no single further column addition shortens it.", "quantifier": "every lattice, every positive threshold", "why_tests_cant": "Loop whose length depends on the input; quantifies over all lattices.", "anchors": ["jdftx/core/LatticeUtils.cpp: reduceMatrix"]}
{"id": "C27", "title": "Detected lattice symmetries are exactly metric-preserving integer maps and form a group", "statement": "Every reported lattice symmetry preserves the metric, has integer entries and does not mix truncated with periodic directions; the set contains the identity and is closed under composition and inverse when the search box covers all symmetries.", "quantifier": "every lattice", "why_tests_cant": "Quantifies over lattices.", "anchors": ["jdftx/core/LatticeUtils.cpp: getSymmetries"]}
{"id": "C28", "title": "Wigner-Seitz reduction terminates in the cell at an equivalent point", "statement": "Reducing a point to the Wigner-Seitz cell terminates, returns a point that differs from the input by a lattice vector, and that lies on the inner side of every cell face to within the tolerance.", "quantifier": "every set of cell faces, every point", "why_tests_cant": "Termination of a restart loop for all inputs.", "anchors": ["jdftx/core/WignerSeitz.h: WignerSeitz::reduce", "jdftx/core/WignerSeitz.cpp"]}
{"id": "C29", "title": "Neighbour list excludes truncated directions", "statement": "The list of neighbouring lattice vectors along non-truncated directions contains no vector with a component along a truncated direction.", "quantifier": "every lattice, every choice of truncated directions", "why_tests_cant": "Quantifies over lattices and geometries.", "anchors": ["jdftx/core/WignerSeitz.cpp: WignerSeitz::getNeighbours"]}
{"id": "C30", "title": "Periodic point lookup finds every point within tolerance", "statement": "Looking up a position in a periodic point set returns an index whose point coincides with it modulo lattice vectors within the tolerance, and returns 'not found' only if no such point exists, exactly as a linear search would.", "quantifier": "every point set, every query, every mesh size", "why_tests_cant": "Cell-boundary and wrap-around cases over all positions.", "anchors": ["jdftx/core/LatticeUtils.h: PeriodicLookup::find, addPoint, meshIndex"]}
{"id": "C31", "title": "k-point folding yields a uniform mesh of total weight one", "statement": "Folding the k-points produces kfold[0]*kfold[1]*kfold[2] points per input point, whose weights add up to that of the input, which all lie in (-1/2,1/2], and whose multiples by kfold are the input point modulo integers, each residue being hit once.", "quantifier": "every list of k-points, every folding", "why_tests_cant": "All foldings and fractional offsets.", "anchors": ["jdftx/electronic/ElecInfo.cpp: ElecInfo::kpointsFold, fmodPositive"]}
{"id": "C32", "title": "Symmetry reduction of k-points conserves total weight and maps each point to a symmetric image", "statement": "Reducing the k-mesh keeps the total weight, every original k-point is the image of its reduced k-point under the recorded operation and inversion, and the reduced list contains one point per orbit.", "quantifier": "every k-mesh, every symmetry group", "why_tests_cant": "Orbit bookkeeping over all meshes and groups.", "anchors": ["jdftx/electronic/Symmetries.cpp: Symmetries::reduceKmesh, kmapPack, kmapUnpack"]}
{"id": "C33", "title": "Symmetrisation is a projection onto invariant fields", "statement": "Symmetrising a field (or forces) yields an invariant result, leaves invariant input unchanged, applying it twice equals applying it once, and it conserves the total.", "quantifier": "every symmetry group and grid it acts on, every field", "why_tests_cant": "All groups, all fields.", "anchors": ["jdftx/core/BlasExtra_internal.h: eblas_symmetrize_calc, eblas_symmetrize_phase_calc", "jdftx/electronic/Symmetries.cpp: symmetrize, initSymmIndex"]}
{"id": "C34", "title": "Space-group operations compose and invert as a group acting on positions", "statement": "Composing two operations acts on positions like applying them one after the other, the inverse undoes the operation, and composition is associative with the identity as unit.", "quantifier": "all operations with unimodular rotation, all positions", "why_tests_cant": "Algebraic law over all matrices.", "anchors": ["jdftx/core/matrix3.h: SpaceGroupOp"]}
{"id": "C35", "title": "The plane-wave basis contains every plane wave below the cutoff", "statement": "The basis for a k-point consists of exactly the reciprocal lattice vectors G with kinetic energy |k+G|^2/2 <= Ecut: the enumerated box never cuts off a qualifying vector, none is listed twice.", "quantifier": "every lattice, cutoff and k-point", "why_tests_cant": "Geometric bound over all lattices including very skewed ones.", "anchors": ["jdftx/electronic/Basis.cpp: Basis::setup"]}
{"id": "C36", "title": "Failed line minimisation reports the progress made", "statement": "Whenever a line minimisation returns failure, the reported step size equals the total displacement applied along the search direction, so that undoing it restores the starting point.", "quantifier": "every energy landscape (including non-finite values), every parameter choice", "why_tests_cant": "Failure paths need adversarial energy landscapes.", "anchors": ["jdftx/core/Minimize_linmin.h: linminQuad, linminCubicWolfe, linminRelax", "jdftx/core/Minimize.h"]}
{"id": "C37", "title": "Minimisation never ends above its starting energy", "statement": "With a line minimiser that uses energies, the energy returned by the minimiser is the energy of the final state and is not higher than that of the initial state.", "quantifier": "every energy landscape, every iteration limit and parameter choice", "why_tests_cant": "Quantifies over landscapes and histories.", "anchors": ["jdftx/core/Minimize.h: Minimizable::minimize"]}
{"id": "C38", "title": "Convergence is declared exactly under the documented criterion", "statement": "Energy-change convergence is declared exactly when the last n successive energy changes are decreases no larger than the threshold (and norm convergence exactly when the last n norms are below the threshold), for the whole history of reported values.", "quantifier": "every sequence of energies or norms, every threshold and window", "why_tests_cant": "History property over unbounded sequences.", "anchors": ["jdftx/core/Minimize.h: EdiffCheck", "jdftx/core/Pulay.h: NormCheck"]}
{"id": "C39", "title": "Conjugate-gradient solver keeps the true residual", "statement": "At every iteration of the linear conjugate-gradient solvers the recursively updated residual equals right-hand side minus operator applied to the current solution, so that convergence is declared only for a solution with small residual.", "quantifier": "every linear operator, right-hand side, starting guess and iteration count", "why_tests_cant": "Invariant over unbounded iterations.", "anchors": ["jdftx/core/Minimize.h: LinearSolvable::solve", "jdftx/perturb/LinearSolver.h: LinearSolvableIndefinite::CG"]}
{"id": "C40", "title": "Pulay mixing keeps the overlap matrix consistent with the stored history", "statement": "At every mixing step the overlap matrix used contains the inner products of exactly the stored residuals, the history never exceeds its maximum length, and the mixing coefficients add up to one.", "quantifier": "every sequence of residuals, every history length, repeated minimisations", "why_tests_cant": "History invariant across calls.", "anchors": ["jdftx/core/Pulay.h: Pulay::minimize, loadState, saveState"]}
{"id": "C41", "title": "Finite-difference test leaves the state unchanged", "statement": "The derivative test returns the minimiser to exactly the displacement at which it started.", "quantifier": "every sequence of test step sizes", "why_tests_cant": "Exact cancellation over the loop.", "anchors": ["jdftx/core/Minimize.h: Minimizable::fdTest"]}
{"id": "C42", "title": "Quintic spline: continuity, derivative and adjoint", "statement": "The quintic spline is continuous with its first four derivatives across knots, the derivative routine returns its derivative, and the gradient routine is the exact adjoint of evaluation.", "quantifier": "every coefficient array, every evaluation point", "why_tests_cant": "Polynomial identities over all coefficients.", "anchors": ["jdftx/core/Spline.h: QuinticSpline"]}
{"id": "C43", "title": "Chemical-potential search brackets the electron number and terminates", "statement": "The bisection for the chemical potential terminates and returns a value within the tolerance of a point where the electron count crosses the target.", "quantifier": "every set of eigenvalues, weights and target between 0 and capacity, every smearing that is monotone", "why_tests_cant": "Termination and accuracy over all spectra.", "anchors": ["jdftx/electronic/ElecInfo.cpp: ElecInfo::findMu"]}
{"id": "C44", "title": "Initial fillings place exactly the available electrons in the lowest bands", "statement": "The initial fillings of a state lie between 0 and 1, are non-increasing with band index, contain at most one fractional value, and add up to the electrons of the state whenever the bands can hold them; re-distribution on changing the number of bands conserves the electron number or reports an error.", "quantifier": "every electron count, band count and old fillings", "why_tests_cant": "Real-valued input space.", "anchors": ["jdftx/electronic/ElecInfo.cpp: ElecInfo::setup"]}
{"id": "C45", "title": "Tetrahedron density of states integrates to the state count", "statement": "The density of states contributed by a tetrahedron integrates to its volume times the mean of its corner weights, whatever degeneracies occur among the corner energies; coalescing and welding preserve the integral.", "quantifier": "every choice of corner energies and weights", "why_tests_cant": "Degenerate cases over real inputs.", "anchors": ["jdftx/electronic/TetrahedralDOS.cpp: accumTetrahedron, coalesceIntervals, weldEigenvalues, convertLspline"]}
{"id": "C46", "title": "Molecular dynamics without thermostat is time reversible and conserves momentum", "statement": "Without a thermostat, reversing all velocities after any number of steps and integrating the same number of steps returns to the initial positions with reversed velocities; if the forces sum to zero the total momentum is conserved.", "quantifier": "every force field, time step, number of steps and initial condition", "why_tests_cant": "Quantifies over force fields and lengths.", "anchors": ["jdftx/electronic/IonicDynamics.cpp: IonicDynamics::run"]}
{"id": "C47", "title": "Accumulated density is the running average", "statement": "The accumulated electron density after any number of dynamics steps is the arithmetic mean of the densities of those steps.", "quantifier": "every number of steps, every density sequence", "why_tests_cant": "Induction over steps.", "anchors": ["jdftx/electronic/IonicDynamics.cpp: IonicDynamics::run (nAccum)"]}
{"id": "C48", "title": "Binary files are endian independent", "statement": "Data written by one machine and read by another give the same values for either byte order, and writing leaves the caller's buffer unchanged.", "quantifier": "every buffer, every supported element size, both byte orders of writer and reader", "why_tests_cant": "Tests run on little-endian machines only.", "anchors": ["jdftx/core/Util.cpp: convertToLE, convertFromLE, freadLE, fwriteLE"]}
{"id": "C49", "title": "k-point map entries pack and unpack losslessly", "statement": "Packing source index, inversion flag and symmetry index into one integer and unpacking gives the same three values, and the numerical order of packed values is lexicographic in source index, inversion, symmetry.", "quantifier": "every index within 32 and 31 bits", "why_tests_cant": "Full bit-vector range.", "anchors": ["jdftx/electronic/Symmetries.cpp: kmapPack, kmapUnpack"]}
{"id": "C50", "title": "Matrix block access reads and writes exactly the addressed block", "statement": "Setting a strided block changes exactly the addressed entries, reading it back returns the values set, and blocks that do not lie inside the matrix are rejected.", "quantifier": "every matrix size, block bounds and strides", "why_tests_cant": "All index combinations.", "anchors": ["jdftx/core/matrixOperators.cpp: matrix::operator(), matrix::set, matrix::accum"]}
{"id": "C51", "title": "Tiled block matrix products equal products with the expanded matrix", "statement": "Multiplying by a block-diagonal tiling gives the product with the explicit block-diagonal matrix, from the left and from the right.", "quantifier": "every block shape, number of blocks, phases and operand", "why_tests_cant": "All shapes.", "anchors": ["jdftx/core/matrixOperators.cpp: tiledBlockMatrix::operator*, operator*(matrix,tiledBlockMatrix)"]}
{"id": "C52", "title": "Threaded matrix multiplication equals the sequential product", "statement": "Splitting a matrix product over threads along rows or columns gives the same result as the undivided product for all transpose options.", "quantifier": "every size, transpose option and thread count", "why_tests_cant": "All sizes and splits.", "anchors": ["jdftx/core/BlasExtra.cpp: eblas_zgemm, eblas_zgemm_sub"]}
{"id": "C53", "title": "Gradient and divergence are negative adjoints", "statement": "The reciprocal-space gradient and divergence (scalar and traceless-tensor versions) satisfy <grad X, V> = -<X, div V> (tensor: +), including the treatment of Nyquist components.", "quantifier": "every field, every grid", "why_tests_cant": "Adjointness over all fields.", "anchors": ["jdftx/core/Operators_internal.h: gradient_calc, divergence_calc, tensorGradient_calc, tensorDivergence_calc"]}
{"id": "C54", "title": "Dump file names: placeholders are fully expanded", "statement": "Expanding a dump-name pattern terminates, and replaces each placeholder by its value.", "quantifier": "every pattern and all values", "why_tests_cant": "Values containing placeholders are never present in tests.", "anchors": ["jdftx/electronic/Dump.cpp: Dump::getFilename"]}
{"id": "C55", "title": "Dump frequency", "statement": "Output at a frequency with interval n happens at exactly every n-th iteration, and at every iteration if no interval was given; a terminated run always saves its state at the end.", "quantifier": "every interval table, every iteration history", "why_tests_cant": "Unbounded histories.", "anchors": ["jdftx/electronic/Dump.cpp: Dump::checkInterval, Dump::operator()"]}
{"id": "C56", "title": "Euler angles reproduce the rotation", "statement": "The rotation built from the Euler angles extracted from a rotation matrix is that matrix.", "quantifier": "every rotation matrix", "why_tests_cant": "Continuous domain with branch cuts.", "anchors": ["jdftx/fluid/Euler.h: eulerFromMatrix, matrixFromEuler"]}
{"id": "C57", "title": "Cell map weights add up to one over each equivalence class", "statement": "The weights assigned to the periodic images of a pair separation in a supercell add up to one for every separation class, so that transforming with the weighted cell map loses nothing.", "quantifier": "every supercell, every separation", "why_tests_cant": "Normalisation over all geometries.", "anchors": ["jdftx/core/LatticeUtils.cpp: getCellMap"]}
{"id": "C58", "title": "Scaled fields behave like plain fields", "statement": "A field stored as a pending scale factor times data behaves under every operation (sum, product, axpy, dot, norm, inverse) like the field with the factor applied, including a zero factor.", "quantifier": "every field, factor and sequence of operations", "why_tests_cant": "All operation sequences.", "anchors": ["jdftx/core/Operators.cpp: axpy, operator*=, operator+=, dot, nrm2, sum, inv", "jdftx/core/ScalarField.h: scale, absorbScale"]}
{"id": "C59", "title": "Wavefunction transforms under symmetry are inverted by the matching gather", "statement": "Gathering with a symmetry transform what was scattered with it gives the original coefficients back (unit translation phases, unitary spinor rotation).", "quantifier": "every basis pair and unimodular transform, every wavefunction", "why_tests_cant": "All transforms.", "anchors": ["jdftx/electronic/ColumnBundleTransform.cpp: scatterAxpy, gatherAxpy"]}
{"id": "C60", "title": "Determinant of a complex matrix", "statement": "The determinant function returns the determinant of its argument, including its sign.", "quantifier": "every square matrix", "why_tests_cant": "Depends on the pivoting history of the factorisation.", "anchors": ["jdftx/core/matrixOperators.cpp: det(matrix)", "jdftx/core/matrixLinalg.cpp: LU"]}
{"id": "C61", "title": "Constraints on ionic motion are respected", "statement": "Every direction used to move the ions respects all constraints given by the user: fixed ions rest, line- and plane-constrained ions stay on their line or plane, every collective (hyperplane) combination is kept; without constraints there is no net translation, and nothing that respects the constraints is altered.", "quantifier": "every set of accepted constraints, every motion, every compatible symmetry", "why_tests_cant": "All combinations of constraints interact; a test covers a few.", "anchors": ["jdftx/electronic/IonicMinimizer.cpp: IonicMinimizer::constrain", "jdftx/electronic/SpeciesInfo.cpp: Constraint::operator()", "jdftx/commands/ion.cpp: process"]}
{"id": "C62", "title": "Distance to the Wigner-Seitz boundary and in-radius are the true ones", "statement": "Inside the cell the reported boundary distance is the Cartesian distance to the nearest bounding plane among those considered, outside it is zero; the reported in-radius is that of the largest sphere about the origin that fits inside the considered planes.", "quantifier": "every non-singular lattice, every list of faces, every point, with or without an ignored direction", "why_tests_cant": "Quantifies over lattices, face sets and points.", "anchors": ["jdftx/core/WignerSeitz.h: WignerSeitz::boundaryDistance", "jdftx/core/WignerSeitz.cpp: WignerSeitz::inRadius"]}
{"id": "C63", "title": "Products of scaled, transposed matrix blocks", "statement": "For all matrices, blocks inside them, real scale factors and transpose/adjoint options with fitting shapes, the product has the right shape and its element (i,j) is the sum over l of (element (i,l) of the first operand) times (element (l,j) of the second), for any number of threads; shapes that do not fit are rejected.", "quantifier": "all matrices, blocks, scale factors, options, thread counts", "why_tests_cant": "Products are taken for shapes, offsets and options that depend on the system; a wrong leading dimension or offset shows only for particular combinations.", "anchors": ["jdftx/core/matrixOperators.cpp: operator*(matrixScaledTransOp,matrixScaledTransOp)", "jdftx/core/matrix.h: matrixScaledTransOp"]}
{"id": "C64", "title": "Conversion and reductions of dense matrices", "statement": "Converting a scaled, transposed or adjoint block to a matrix gives its elements; dagger and transpose describe the adjoint and transpose; trace is the sum of the diagonal; diag returns the real parts of the diagonal; diagDot(X,Y) returns the real diagonal of X^dagger Y for any number of threads; nrm2 is the Frobenius norm of the operand. Shapes for which these are undefined are rejected.", "quantifier": "all matrices, blocks, options, real scale factors and thread counts", "why_tests_cant": "Stride and pointer arithmetic must be right for every shape and offset.", "anchors": ["jdftx/core/matrixOperators.cpp: matrixScaledTransOp::operator matrix, dagger, transpose, trace, diag, diagDot, nrm2"]}
{"id": "C65", "title": "Smearing functions, their derivatives and entropies are consistent", "statement": "For every smearing type the derivative function is the derivative of the occupation, and the entropy changes with an eigenvalue by (eps-mu)/width times the change of the occupation, so that the grand potential of a band changes by its occupation; Fermi and Gaussian occupations decrease strictly from 1 to 0.", "quantifier": "every smearing type, width, chemical potential and eigenvalue", "why_tests_cant": "A wrong coefficient in one of twelve formulas breaks the variational property everywhere by a small amount.", "anchors": ["jdftx/electronic/ElecInfo.cpp: ElecInfo::smear, ElecInfo::smearPrime, ElecInfo::smearEntropy"]}
{"id": "C66", "title": "Spinor rotations represent the rotation", "statement": "The 2x2 matrix used to transform spinors under a symmetry operation is unitary with determinant one, turns the spin operators by the proper part of the operation, and time reversal flips every spin direction.", "quantifier": "every orthogonal matrix, with or without inversion and time reversal", "why_tests_cant": "A sign or axis error shows only for particular rotations in non-collinear calculations.", "anchors": ["jdftx/electronic/Symmetries.cpp: Symmetries::getSpinorRotation", "jdftx/electronic/ColumnBundleTransform.cpp: ColumnBundleTransform::ColumnBundleTransform"]}
{"id": "C67", "title": "L-BFGS searches along descent directions given by the inverse-Hessian estimate", "statement": "The direction L-BFGS hands to the line minimiser is minus the textbook limited-memory inverse Hessian applied to the (preconditioned) gradient; it satisfies the secant equation for the last step and is a descent direction at every iteration.", "quantifier": "every objective, preconditioner, history length, number of iterations, report and kill schedule", "why_tests_cant": "The history mixes data of many iterations; a wrong inner product only degrades convergence and shows in no single test.", "anchors": ["jdftx/core/Minimize_lBFGS.h: Minimizable::lBFGS"]}
{"id": "C68", "title": "Lattice minimisation keeps fixed lattice vectors and symmetries, and steps can be undone", "statement": "Whatever sequence of steps the lattice minimiser takes, lattice vectors that are truncated or have zero move scale stay unchanged and every symmetry operation remains a symmetry of the lattice; constraining a strain is the orthogonal projection onto the strains allowed; and a step followed by the same step backwards restores the lattice.", "quantifier": "every lattice, set of fixed vectors, symmetry group, sequence of directions and step sizes", "why_tests_cant": "The constraint interacts with symmetries and with the lattice reached so far; small leaks accumulate over a run.", "anchors": ["jdftx/electronic/LatticeMinimizer.cpp: LatticeMinimizer::LatticeMinimizer, step, constrain", "jdftx/electronic/Symmetries.cpp: Symmetries::symmetrize(matrix3)"]}
{"id": "C69", "title": "Embedded truncated Coulomb interaction is Hermitian and places charge correctly", "statement": "When the truncated Coulomb interaction is evaluated on a doubled mesh, the set-up always succeeds; the density placed on the larger mesh lies inside the Wigner-Seitz cell of the original lattice and adds up, over periodic images, to the original density; reading back is the adjoint of placing; and the interaction is Hermitian, with point charges on the left being the adjoint of point charges on the right.", "quantifier": "every lattice, mesh, truncation geometry, list of cell faces, thread arrival order, kernel and pair of densities", "why_tests_cant": "Index maps and boundary classes depend on mesh parity, geometry and the order in which threads report; an asymmetric interaction only shows as a small inconsistency between energies and potentials.", "anchors": ["jdftx/core/Coulomb.cpp: Coulomb::Coulomb, embedExpand, embedShrink, operator(), setEmbedIndex_sub, setEmbedBoundarySymm_sub, boundarySymmetrize", "jdftx/core/BlasExtra_internal.h: eblas_symmetrize_calc"]}
{"id": "C70", "title": "Ionic forces and stresses are the derivatives of the ion-ion energy", "statement": "For ions in a cell that is periodic in three or two directions or isolated, the force reported for each ion is minus the derivative of the reported ion-ion energy with respect to its position, the reported stress is the derivative with respect to strain, and the forces add up to zero. Moving ions by lattice vectors changes nothing.", "quantifier": "every lattice, number of ions, charges, positions, directions of displacement and strain, widths and cut-offs of the sums", "why_tests_cant": "A wrong factor or missing image only appears as slow drift in geometry optimisation; finite differences test single geometries.", "anchors": ["jdftx/core/CoulombPeriodic.cpp: EwaldPeriodic::energyAndGrad", "jdftx/core/CoulombSlab.cpp: EwaldSlab::energyAndGrad", "jdftx/core/CoulombIsolated.cpp: EwaldIsolated::energyAndGrad"]}
{"id": "C71", "title": "Dispersion energy, forces and stress are consistent", "statement": "The dispersion correction counts every pair of atoms once over all cells within reach; its forces and stress are the derivatives of its energy; the forces add up to zero; nothing depends on the number of processes; and describing an atom by another periodic image changes nothing.", "quantifier": "every lattice, number of atoms, parameters, positions, displacements, strains, truncated directions and number of processes", "why_tests_cant": "Half-space weights and the division over processes depend on cell counts; a wrong factor shows as a small drift.", "anchors": ["jdftx/electronic/VanDerWaalsD2.cpp: vdwPairEnergyAndGrad, VanDerWaalsD2::energyAndGrad"]}
{"id": "C72", "title": "Local density functionals: published energies, and potentials that are their derivatives", "statement": "For every local density functional the energy density is the published one, the reported potential of each spin is the derivative of the energy density with respect to that spin density, equal spin densities give the unpolarised result, exchanging the spins exchanges the potentials, full polarisation gives the ferromagnetic parametrisation, and the energy is continuous in the density.", "quantifier": "every functional, positive density, spin densities, direction of change and scale factor", "why_tests_cant": "A wrong factor in one branch of a derivative only shows as slow convergence or slightly wrong forces at some densities.", "anchors": ["jdftx/electronic/ExCorr_internal_LDA.h: LDA_calc, LDA_eval, LDA_eval_C_PZ, LDA_eval_C_PW, LDA_eval_C_VWN", "jdftx/electronic/ExCorr_internal.h: spinInterpolation, spinInterpolate"]}
{"id": "C73", "title": "Noncollinear magnetism does not depend on the spin axes and has consistent derivatives", "statement": "The local transformation to spin-diagonal form returns the eigenvalues of the spin density matrix up to a regularisation below 5e-9, keeps the total density exactly, is unchanged when the spin axes are rotated, and its gradient propagation returns the exact derivative with respect to the density matrix and to the transformed quantity.", "quantifier": "every spin density matrix, transformed quantity, unitary rotation, function of the results and curve of inputs", "why_tests_cant": "Needs all rotations and all directions of change; a sign error in one component only shows for particular magnetisation directions.", "anchors": ["jdftx/electronic/ExCorr_internal.h: loadSpinVector, accumSpinVectorGrad, spinDiagonalize_calc, spinDiagonalizeGrad_calc", "jdftx/electronic/ExCorr.cpp: spinDiagonalize, spinDiagonalizeGrad"]}
{"id": "C74", "title": "Exchange-correlation potentials are the derivatives of the energy on every process", "statement": "For local, gradient-corrected and meta functionals, unpolarised, polarised and noncollinear, the potential returned on every process is the derivative of the returned energy with respect to the density (and kinetic energy density) at every grid point, and energy and potentials do not depend on the number of processes.", "quantifier": "every grid, lattice, spin mode, list of functionals with correct pointwise derivatives, number of processes, positive densities and direction of change", "why_tests_cant": "Depends on the division of points and of Cartesian directions over processes; on one process, or with collinear spins, everything looks right.", "anchors": ["jdftx/electronic/ExCorr.cpp: ExCorr::operator()", "jdftx/core/Operators.cpp: I, J, Idag, Jdag, D, L"]}
{"id": "C75", "title": "Brillouin-zone sums over the reduced states equal sums over the complete k-point mesh", "statement": "After folding and symmetry reduction, for every function of the wave vector that is unchanged by the symmetries the weighted sum over the states of each spin channel equals the weighted sum over the complete folded mesh (times two without spin resolution); both spin channels hold the same wave vectors with the same weights; and the initial fillings of all states, weighted, add up to the valence electrons plus the extra charge.", "quantifier": "every k-point list, folding, symmetry group, spin type, number of processes and electron count", "why_tests_cant": "Infinitely many meshes, groups and functions; the property composes several stages of the set-up.", "anchors": ["jdftx/electronic/ElecInfo.cpp: ElecInfo::kpointsReduce, ElecInfo::kpointsFold, ElecInfo::setup", "jdftx/electronic/Symmetries.cpp: Symmetries::reduceKmesh"]}
{"id": "C76", "title": "Cavity shape functions stay between vacuum and solvent and have consistent gradients", "statement": "The shape functions of the density-based continuum solvation models lie between 0 and 1, decrease from 1 in empty space to 0 at high density, and the gradient propagated to the density is the derivative of the solvation energy through the shape function, at every density.", "quantifier": "every energy functional of the shape, density on every number of grid points, threshold, width and bulk permittivity", "why_tests_cant": "Needs every density including zero and negative values; a wrong factor only shows as slow convergence or slightly wrong forces.", "anchors": ["jdftx/fluid/PCM_internal.h: ShapeFunction::compute_calc, ShapeFunction::propagateGradient_calc, ShapeFunctionSCCS::compute_calc, ShapeFunctionSCCS::propagateGradient_calc", "jdftx/fluid/PCM_internal.cpp: ShapeFunction, ShapeFunctionSCCS"]}
{"id": "C77", "title": "Cavities that depend on field and gradients have consistent gradients", "statement": "In the CANDLE and SGA13 solvation models the shape function (or expanded density) stays in range, and the gradients propagated to the electron density, the electric potential and the asymmetry parameter are the derivatives of the solvation energy through it.", "quantifier": "every grid, lattice, energy functional of the shape, density, potential, parameters and direction of change", "why_tests_cant": "Involves Fourier derivatives and their adjoints on every grid; a sign or scale error in one term only shows as poor convergence for some solutes.", "anchors": ["jdftx/fluid/PCM_internal.h: ShapeFunctionCANDLE::compute_or_grad_calc, ShapeFunctionSGA13::expandDensity_calc", "jdftx/fluid/PCM_internal.cpp: ShapeFunctionCANDLE, ShapeFunctionSGA13::expandDensity"]}
{"id": "C78", "title": "Real-space and reciprocal-space forms of a field are equivalent", "statement": "Transforming a real field to reciprocal space and back returns it; reciprocal components of a real field are conjugate at opposite vectors, and arrays with this symmetry are returned by going to real space and back; Idag and Jdag are the adjoints of I and J; sums of products agree in both forms.", "quantifier": "every grid (odd and even dimensions), field and reciprocal array", "why_tests_cant": "All grid sizes and fields; the half-space storage counts some planes once and others twice, which depends on parity.", "anchors": ["jdftx/core/Operators.cpp: I, J, Idag, Jdag, dot"]}
{"id": "C79", "title": "The soft-sphere cavity follows the atoms and gives consistent forces", "statement": "The soft-sphere shape function lies in (0, 1], does not change when an atom is replaced by a periodic image, moves with the atoms, shrinks the solvent region when radii grow, and the gradients propagated to positions and radii are the derivatives of the solvation energy.", "quantifier": "every grid, lattice metric, set of replicas, list of atoms, radii, energy functional of the shape and displacement", "why_tests_cant": "Needs all atomic positions including those far outside the cell; wrapping and cutoffs only matter for special positions.", "anchors": ["jdftx/fluid/PCM_internal.h: ShapeFunctionSoftSphere::compute_calc, ShapeFunctionSoftSphere::propagateGradient_calc", "jdftx/fluid/PCM_internal.cpp: ShapeFunctionSoftSphere"]}
{"id": "C80", "title": "Nonlinear response functions of solvent dipoles and ions", "statement": "For every physically allowed set of solvent and electrolyte parameters, setting up the nonlinear continuum model terminates: the searches for ionic packing fraction and effective dipole field end at every potential and field and return a solution to within tolerance; parameters outside the allowed range stop the run with an error. The energy densities evaluated on the grid agree with the tabulated thermodynamic energies, the reported derivatives with respect to potential, electric field and cavity shape are the exact derivatives of the reported energy density (also at zero field), and the derivative of the thermodynamic energy is the ionic charge density, respectively the polarisation. When linear response is selected, the response is linear.", "quantifier": "all parameters, potentials, electric fields (vectors), cavity values and table entries", "why_tests_cant": "The searches have no iteration limit, so termination at every real potential is not testable; derivative consistency is an identity over all fields including the singular point of zero field.", "anchors": ["jdftx/fluid/PCM_internal.h: NonlinearPCMeval::Screening, NonlinearPCMeval::Dielectric", "jdftx/fluid/PCM_internal.cpp: Screening::Screening, Dielectric::Dielectric", "jdftx/fluid/NonlinearPCM.cpp: NonlinearPCM::NonlinearPCM", "jdftx/core/RadialFunction.h: RadialFunctionG::operator(), deriv"]}
{"id": "C81", "title": "Linear continuum solvation: solver operator, energy and gradients", "statement": "The operator that the linear solvation model inverts is symmetric and at least as positive as that of vacuum, and its preconditioner is symmetric and not negative, so the conjugate gradient method applies to them. The reported electrostatic energy, evaluated with an inexact potential, is off by exactly minus half the quadratic form of the error, and the reported derivatives with respect to charge density and cavity shape functions are the derivatives of the energy once the equation is solved, for isotropic and anisotropic dielectrics, with one or two cavities and with or without ions.", "quantifier": "all grids, charge densities, potentials, shape functions, dielectric constants or tensors, ionic strengths, and all joint differentiable changes of them", "why_tests_cant": "Symmetry and derivative identities range over all fields on all grids; finite-difference tests sample a few directions of a few systems to a tolerance.", "anchors": ["jdftx/fluid/LinearPCM.cpp: LinearPCM::hessian, precondition, get_Adiel_and_grad_internal", "jdftx/fluid/PCM.h: PCM::coulomb", "jdftx/core/Operators.cpp: O, L, Linv"]}
{"id": "C82", "title": "Nonlinear continuum solvation: energy and gradients", "statement": "The gradient passed to the minimiser of the nonlinear solvation model is the derivative of the energy passed with it. The reported electrostatic energy is minus the minimised energy (for local response), and its reported derivatives with respect to charge density and cavity shape functions are right once the minimiser has converged, for one or two cavities, with or without ions and with the nonlocal kernels of CANON.", "quantifier": "all grids, charge densities, potentials, shape functions, response tables and nonlocal kernels, and all joint differentiable changes of them", "why_tests_cant": "Derivative identities range over all fields on all grids; finite-difference tests sample a few directions of a few systems to a tolerance.", "anchors": ["jdftx/fluid/NonlinearPCM.cpp: NonlinearPCM::compute, set_internal, get_Adiel_and_grad_internal"]}
{"id": "C83", "title": "The linear solvers converge", "statement": "With a symmetric positive definite operator and preconditioner, each state the conjugate-gradient solvers go through has the least energy that can be reached by combining the steps taken so far, the energy decreases in every iteration, and the solver reports convergence within as many iterations as the dimension of the space, to the exact solution when the tolerance is zero. The number of iterations reported is the number made. The solver of perturbation theory returns the best state it has seen.", "quantifier": "all vector spaces, operators, preconditioners, right-hand sides, initial states, tolerances and iteration limits", "why_tests_cant": "Optimality against all combinations of steps and convergence for every operator are not testable on examples.", "anchors": ["jdftx/core/Minimize.h: LinearSolvable::solve", "jdftx/perturb/LinearSolver.h: LinearSolvableIndefinite::CG"]}
{"id": "C84", "title": "The MINRES solver minimises the residual and converges", "statement": "For every symmetric, possibly indefinite operator and symmetric square root of the preconditioner, the residual reported in each iteration is that of the state, it is the smallest of all states in the Krylov space searched so far, it never grows and decreases over any two iterations; for invertible operators the solver converges within as many iterations as the dimension of the space from every initial state, and the state never becomes not-a-number. It ends without convergence only at the iteration limit, when interrupted, or after two iterations with too little progress.", "quantifier": "all real vector spaces, inner products, operators, preconditioners, right-hand sides, initial states, tolerances and iteration limits", "why_tests_cant": "Optimality over the whole Krylov space and convergence for every operator are not testable on examples; breakdowns happen only for special right-hand sides.", "anchors": ["jdftx/perturb/LinearSolver.h: LinearSolvableIndefinite::MINRES"]}
{"id": "C85", "title": "Slopes and steps of the electronic minimiser", "statement": "When the electronic state is minimised, the number that the line search takes as slope (inner product of gradient and search direction) is the derivative of the reported free energy along the step the program makes, including orthonormalisation, diagonalisation of the auxiliary Hamiltonian and the new search of the chemical potential; no step makes the program exit, the wavefunctions stay orthonormal, and the state reached along a direction depends only on the total step.", "quantifier": "every energy function of the density matrices with its Hamiltonian, every number of states, bands and basis functions, every orthonormal state, search direction and sequence of steps, every occupation mode", "why_tests_cant": "A finite-difference test checks one state and one direction of one system within rounding; the claim is about all of them and about the frames accumulated over all steps.", "anchors": ["jdftx/electronic/ElecMinimizer.cpp (dot, step, compute, report, constrain)", "jdftx/electronic/ElecVars.cpp (elecEnergyAndGrad, orthonormalize)", "jdftx/electronic/ElecInfo.cpp (updateFillingsEnergies, smearGrad)", "jdftx/core/matrixLinalg.cpp (orthoMatrix, cis)"]}
{"id": "C86", "title": "Functions of matrices", "statement": "Powers, exponentials and logarithms of matrices and their gradients are those of linear algebra, whichever eigenvectors the linear algebra library returns: powers of positive definite matrices obey the laws of powers, the program exits exactly for unhandled negative powers of matrices that are not positive definite, the exponential of i times a Hermitian matrix is the matrix exponential and its inverse function undoes it, and the gradient functions are the derivatives. Orthonormalising with the inverse square root of the overlap gives the closest orthonormal set; linearly dependent sets are reported. The compressed exchange operator reproduces exchange exactly on the orbitals it was built from.", "quantifier": "all matrix sizes, Hermitian or unitary matrices, real exponents, choices of eigenvectors, differentiable paths of matrices", "why_tests_cant": "Degenerate eigenvalues leave a continuum of eigenvectors, and the claims are identities and optimality statements over all matrices.", "anchors": ["jdftx/core/matrixLinalg.cpp: pow, invsqrt, cis, cisInv, sqrt_grad, cis_grad", "jdftx/wannier/WannierMinimizer.cpp: fixUnitary, report", "jdftx/electronic/ExactExchange.cpp: prepareHamiltonian, applyHamiltonian"]}
{"id": "C87", "title": "Gradient-corrected functionals", "statement": "The energy density of each built-in gradient-corrected functional (exchange, correlation, kinetic) is the published one, and the reported derivatives with respect to spin densities and gradient products are the derivatives of the reported energy at every density and gradient, including zero gradient and the spin-polarised case, so that the potential on the grid is the derivative of the total energy however the grid is divided over processes. At zero gradient it reduces to the local density approximation, equal spin densities give the result without spin, exchanging spins exchanges the derivatives, gradients lower PBE exchange but never below the local Lieb-Oxford bound, and the PBE correlation energy stays between that of the uniform gas and zero. Functionals without an energy are marked as such.", "quantifier": "all densities, gradients, spin polarisations, functionals, lists of functionals, grids and process counts", "why_tests_cant": "Each functional is a chain of hand-written derivatives; finite-difference tests sample a few points, and special points such as zero gradient are of measure zero. The bounds hold for all gradients or not at all.", "anchors": ["jdftx/electronic/ExCorr_internal_GGA.h: GGA_eval, GGA_calc, integralErfcGaussian, spinInterpolation", "jdftx/electronic/ExCorr.cpp: FunctionalGGA, Functional::hasEnergy"]}
{"id": "C88", "title": "Spherical harmonics and Bessel functions", "statement": "The real spherical harmonics up to l=6, their gradients, the expansion of a product of two of them, and the spherical Bessel functions are those of the published definitions to double precision, at every direction and every argument, including zero argument and both orders of the factors.", "quantifier": "every l, m, every direction on the sphere, every pair of harmonics up to l=3, every real argument", "why_tests_cant": "The values come from a hundred hand-generated formulas and tables of constants; a wrong digit or sign in one of them appears only for a direction and a combination of quantum numbers that a test must happen to use.", "anchors": ["jdftx/core/SphericalHarmonics.h: Ylm, YlmPrime, expandYlmProd, bessel_jl"]}
{"id": "C89", "title": "Energy and temperature in molecular dynamics", "statement": "Without thermostat, molecular dynamics conserves kinetic plus potential energy. With a Nose-Hoover thermostat, and with a barostat for pressure or stress, it conserves the energy of the extended system (atoms, lattice, chains of thermostats, heat, and work against the target pressure or stress), and the thermostat keeps the canonical distribution at the target temperature; the Berendsen thermostat drives the kinetic energy towards the target. Random initial velocities have the requested temperature and respect the constraints. The temperature is computed from the number of directions in which the atoms can move. No choice of parameters accepted by the commands makes the thermostat undefined.", "quantifier": "all numbers of atoms, masses, forces, stresses, velocities, lattices, constraints, chain lengths, damping times, temperatures and target stresses", "why_tests_cant": "Conservation depends on coefficients in coupled equations that must match for every length of chain and every state; a wrong coefficient shows only as a slow drift, a wrong ensemble only in the statistics of long runs.", "anchors": ["jdftx/electronic/IonicDynamics.cpp: IonicDynamics, initializeVelocities, computeKE, computePressure, thermostat", "jdftx/electronic/LatticeMinimizer.cpp: constrain", "jdftx/electronic/IonicMinimizer.cpp: constrain", "jdftx/electronic/Everything.cpp: setup"]}
{"id": "C90", "title": "Symmetries found are those of the crystal", "statement": "The symmetries detected for a crystal are exactly the combinations of a lattice rotation and a translation that map every atom onto an atom of the same species with the corresponding magnetic moment and constraint, within the tolerance: none is missed, none is found twice, and the identity comes first. They are a group exactly even when the positions are symmetric only within the tolerance, and the positions are then corrected, by less than the tolerance, to be exactly symmetric under all of them. With an electric field or a displaced atom, the symmetries kept are those that leave it unchanged, and are again a group.", "quantifier": "all lattices, point groups, numbers of species and atoms, positions, moments, constraints and tolerances; all orders of the species, including species without atoms", "why_tests_cant": "Comparisons within a tolerance are not transitive, so whether the result is a group depends on how the offsets of all atoms are matched and averaged; a test sees a few perfect crystals.", "anchors": ["jdftx/electronic/Symmetries.cpp: findSpaceGroup, calcSymmetries, sortSymmetries, initAtomMaps, magMomEquivalent", "jdftx/electronic/SpeciesInfo.cpp: SpeciesInfo::Constraint::isEquivalent"]}
{"id": "C91", "title": "Coulomb kernels and their stress", "statement": "For every lattice, grid and wave vector, including zero, the factor by which a charge density is multiplied is the Fourier transform of the interaction in the chosen geometry: 1/r without truncation (zero at zero wave vector), 1/r inside a sphere, the potential of a charged plane inside a slab, and erfc(r/(sqrt(2) sigma))/r for the ions of an embedded cell. The lattice derivative reported for two densities is the volume times the derivative of their interaction with respect to strain of the lattice.", "quantifier": "all lattices, truncated directions, radii, widths, grids, densities and strains", "why_tests_cant": "The formulas have removable singularities at zero wave vector and at wave vectors along the normal of a slab; a wrong limit or a missing term in the stress changes energies by amounts that a test on one cell takes for convergence error.", "anchors": ["jdftx/core/Coulomb_internal.h: CoulombPeriodic_calc, CoulombSlab_calc, CoulombSpherical_calc, CoulombIonKernel_calc", "jdftx/core/Coulomb_internal.cpp: coulombAnalytic_thread, coulombAnalyticStress_thread", "jdftx/core/CoulombIsolated.cpp: CoulombSpherical", "jdftx/core/CoulombSlab.cpp: CoulombSlab::latticeGradient", "jdftx/core/Coulomb.cpp: setIonKernel"]}
{"id": "C92", "title": "Exchange kernels and their stress", "statement": "For every pair of k-points, the exchange kernel at every point of the grid is the Fourier transform of the (screened) interaction truncated as requested, evaluated at the wave vector of the point plus the difference of the k-points. A tabulated kernel is read at the entry that belongs to this wave vector. The reported lattice derivative is the volume times the strain derivative of the exchange energy of the pair density.", "quantifier": "all lattices, supercells, grids, differences of k-points, screening parameters, pair densities and strains", "why_tests_cant": "The value at zero wave vector is handled apart from the others and its entry depends on the difference of the k-points; index arithmetic folds negative entries; tests use one k-point or a few symmetric ones.", "anchors": ["jdftx/core/Coulomb_ExchangeEval.cpp: ExchangeEval::ExchangeEval, ExchangeEval::operator(), ExchangeEval::latticeGradient, truncatedErfcTilde, extractExchangeKernel_thread", "jdftx/core/Coulomb_internal.h: ExchangePeriodic_calc, ExchangePeriodicScreened_calc, ExchangeSpherical_calc, ExchangeSlab_calc, multRealKernel_calc, multTransformedKernel_calc", "jdftx/core/Coulomb_internal.cpp: exchangeAnalytic_thread, exchangeAnalyticStress_thread"]}
{"id": "C93", "title": "Excess free energy of classical fluids", "statement": "For every mixture of classical fluids, the gradient of the excess free energy with respect to the densities of the sites that the program returns is the derivative of the energy it returns. For a uniform fluid this energy is the volume times the energy density that the program computes for the uniform fluid, which fixes bulk densities and vapour pressure. For one kind of hard sphere it is the equation of state of Carnahan and Starling, and for fluids described by an equation of state the whole of hard spheres and excess functional is that equation of state.", "quantifier": "all grids, numbers of fluids, sites, bonds, site densities, temperatures and parameters of the equations of state", "why_tests_cant": "Sums over products of weighted scalar, vector and tensor densities on a Fourier grid; a wrong derivative only slows convergence or shifts the result by little; tests run a few solvents and compare energies.", "anchors": ["jdftx/fluid/MixedFMT.cpp: PhiFMT, PhiFMTuniform, PhiBond, PhiBondUniform", "jdftx/fluid/MixedFMT_internal.h: phiFMT_calc, phiBond_calc, WB_f2, WB_f3, mul_vTmv_grad, trace_cubed_grad", "jdftx/fluid/FluidMixtureCompute.cpp: FluidMixture::operator(), FluidMixture::computeUniformEx", "jdftx/fluid/Fex_ScalarEOS.cpp: Fex_ScalarEOS::compute, Fex_ScalarEOS::computeUniform", "jdftx/fluid/Fex_ScalarEOS_internal.h: JeffereyAustinEOS_eval, TaoMasonEOS_eval", "jdftx/fluid/Fex_LJ.cpp: Fex_LJ, Fmix_LJ", "jdftx/fluid/Fex_H2O_BondedVoids.cpp", "jdftx/fluid/Fex_H2O_FittedCorrelations.cpp: Fex_H2O_FittedCorrelations::compute, computeUniform", "jdftx/fluid/ErfFMTweight.h"]}
{"id": "C94", "title": "Translation operators of the classical fluids", "statement": "For each of the three translation operators, every translation and every field: translation by the opposite vector is the exact transpose; the integral is conserved; uniform fields do not change; translations by whole grid spacings move the periodic field exactly. The constant spline moves by the nearest grid vector, the linear spline interpolates the periodic field, the Fourier operator translates every plane wave below the Nyquist frequency exactly. The splines never leave the bounds of the field and never read outside the array.", "quantifier": "all grid sizes, fields, translation vectors (also longer than the cell and negative) and wave vectors", "why_tests_cant": "Wrong reduction of negative or long vectors, or an off-by-one at the periodic boundary, only shows for particular vectors; the transpose property is what makes the gradient of the fluid correct.", "anchors": ["jdftx/fluid/TranslationOperator.cpp: TranslationOperatorSpline::taxpy, TranslationOperatorFourier::taxpy", "jdftx/fluid/TranslationOperator_internal.h: wrappedIndex, constantSplineTaxpy_calc, linearSplineTaxpy_calc, fourierTranslate_calc", "jdftx/fluid/TranslationOperator.h"]}
{"id": "C95", "title": "Energy, gradient and neutrality of a mixture of classical fluids", "statement": "For every mixture of classical fluids and every state, the gradient the program returns is the derivative of the energy it returns, including the dependence through the scale factors that keep prescribed numbers of molecules and a neutral cell. The number of molecules of a component with a prescribed number is that number. The cell is neutral within the tolerance, and the program stops with an error exactly if no state can be neutral.", "quantifier": "all grids, numbers of components, sites and orientations, charges, external charges, fields and contributions to the excess energy", "why_tests_cant": "The scale factors couple all components through an implicit equation; a wrong entry of their derivative only slows convergence or stops it early, and the neutrality of a cell depends on how far the state is from it, which tests started from bulk never probe.", "anchors": ["jdftx/fluid/FluidMixtureCompute.cpp: FluidMixture::operator(), Qtot", "jdftx/fluid/IdealGasMonoatomic.cpp: IdealGasMonoatomic::getDensities, compute, convertGradients", "jdftx/fluid/IdealGasPomega.cpp: IdealGasPomega::getDensities, compute, convertGradients", "jdftx/fluid/IdealGasPsiAlpha.cpp: getDensities_o, convertGradients_o", "jdftx/fluid/IdealGasMuEps.cpp: getDensities_o, convertGradients_o", "jdftx/fluid/Fmix.cpp"]}
{"id": "C96", "title": "Bulk state of a classical fluid at a given pressure", "statement": "For every mixture and target pressure, the program finds a bulk density at which the pressure is the target. The pressure it uses is minus the derivative of the free energy with respect to the volume, and the chemical potentials are the derivatives of the excess energy density. With these, the bulk fluid is a stationary state of the functional that is minimized later: the gradient vanishes and the grand free energy is zero up to the error in the pressure. For hard spheres the pressure is that of Carnahan and Starling. The search always ends.", "quantifier": "all mixtures, proportions, starting densities, target pressures, equations of state (also with several or no densities at the pressure), grids and representations of orientations", "why_tests_cant": "The uniform fluid and the functional on a grid are separate implementations of the same theory; a mismatch in one term shows only as a spurious bulk energy or a drift of the density far from the solute, and the search may cycle for equations of state that no test contains.", "anchors": ["jdftx/fluid/FluidMixture.cpp: FluidMixture::initialize, compute_p", "jdftx/fluid/FluidMixtureCompute.cpp: FluidMixture::computeUniformEx", "jdftx/commands/fluid.cpp: CommandFluid"]}
{"id": "C97", "title": "Exact exchange does not depend on symmetry reduction, transforms or processes", "statement": "The exact-exchange energy computed from symmetry-reduced k-points, with unique transforms for each pair of reduced k-points and with bands divided over any number of processes, equals the exchange energy summed over all pairs of orbitals on the complete k-point mesh; it is not positive for a repulsive interaction; the accumulated orbital gradient is its derivative. Every band of every k-point is handled by exactly one process and the work of each process is within about one band of the average. The compressed (ACE) operator agrees with the exchange operator on the orbitals it was built from, never exceeds it, and gives the same energy. The calculation does not stop for any number of processes.", "quantifier": "all orbitals (any finite set of plane waves), occupations, k-point meshes, symmetry operations with translations and time reversal, choices of transforms, even interaction kernels invariant under the symmetries, numbers of bands, spins and processes; all positive semidefinite operators and orbitals, including linearly dependent ones, for the compressed operator", "why_tests_cant": "tests compare a few materials on a few processes; whether the reduction is exact for every mesh, group and random choice of transforms and every division of bands cannot be sampled", "anchors": ["jdftx/electronic/ExactExchange.cpp:ExactExchangeEval::ExactExchangeEval", "jdftx/electronic/ExactExchange.cpp:ExactExchangeEval::compute", "jdftx/electronic/ExactExchange.cpp:ExactExchangeEval::computePair", "jdftx/electronic/ExactExchange.cpp:ExactExchange::prepareHamiltonian", "jdftx/electronic/ExactExchange.cpp:ExactExchange::applyHamiltonian", "jdftx/core/matrix.cpp:diagMatrix::operator()"]}
{"id": "C98", "title": "Phonon force matrices obey the laws of mechanics", "statement": "The force matrix written by the phonon calculator is symmetric under exchange of the two displaced atoms, and has no net force under a common displacement; making it so changes the computed gradients as little as possible and not at all if they already comply. Distributing it over the Wigner-Seitz cells of the supercell keeps these properties and leaves the matrix at wavevectors commensurate with the supercell unchanged. The correction for finite sound velocities makes the acoustic forces vanish to first order in the wavevector, with a finite result for every geometry. Squared frequencies are Hermitian at every wavevector with three zero modes at the zone centre. The reported zero-point energy, vibrational energy and free energy are those of harmonic oscillators, thermodynamically consistent, integrated over the Brillouin zone with weights that sum to one.", "quantifier": "all lattices, supercells, atoms, truncated directions, gradients (with any errors), masses, temperatures and frequencies", "why_tests_cant": "tests look at the phonons of a few crystals; the laws must hold for any gradients, any supercell and any orientation of the lattice, and some orientations give no finite result", "anchors": ["jdftx/phonon/Phonon.cpp:Phonon::dump", "jdftx/phonon/Phonon.cpp:Phonon::dgradSymmetrize", "jdftx/phonon/Phonon.cpp:Phonon::forceMatrixGammaPrimeFix", "jdftx/phonon/Phonon.cpp:Phonon::forceMatrixHermCheck", "jdftx/phonon/Phonon.cpp:getQuadratureBZ", "jdftx/core/LatticeUtils.cpp:getCellMap"]}
{"id": "C99", "title": "Symmetry-reduced displacements give all phonon force derivatives", "statement": "The phonon calculator displaces atoms along a few directions only and obtains the rest by symmetry. For every crystal, supercell and set of symmetries the result for each mode is the central difference of the forces for that displacement, free of the contributions even in the displacement, also when only one sign is computed because a symmetry reverses the displacement; merging displacements with equivalent images loses nothing; the internal consistency check does not fail, whether symmetries are found automatically or specified by the user; and at most two calculations per mode are made.", "quantifier": "all lattices, supercells, species and atoms, finite space groups including those that do not preserve the unit cell, choices of translations of the operations, orthonormal directions, and force responses that respect the symmetries, with any even anharmonic part", "why_tests_cant": "tests run a few crystals; that images, weights, signs and cell offsets combine to exactly the right derivative for every group and supercell is an algebraic fact about all groups, and fails for specific user-specified operations that a test is unlikely to contain", "anchors": ["jdftx/phonon/Phonon_init.cpp:Phonon::setup", "jdftx/phonon/Phonon_init.cpp:nStabilizer", "jdftx/phonon/Phonon_supercell.cpp:Phonon::processPerturbation", "jdftx/phonon/Phonon.cpp:Phonon::getCell", "jdftx/phonon/Phonon.cpp:Phonon::getUnit"]}
{"id": "C100", "title": "Spread of Wannier functions, its gradient and steps of its minimization", "statement": "The gradient that the Wannier minimizer uses is the derivative of the reported spread along every step (with the scalar product of the minimizer), for any numbers of bands, of bands of the inner window, of frozen centers, of k-points and of neighbours, with or without pinned centers, unless an overlap vanishes or lies on the branch cut of the phase; the same holds for the invariant part. Any sequence of steps keeps rotations unitary, leaves frozen centers unchanged and keeps bands of the inner window in the span of the centers. With a finite-difference formula that is exact for quadratic functions, the spread is the sum of its invariant part, of overlaps between different centers and of fluctuations of phases, so with weights that are not negative it is no less than its invariant part, which is not negative and does not change when centers are mixed by unitary matrices. Point-like centers are found at their positions with zero spread when closer to the assumed position than half a period, and assumed positions otherwise do not change the results.", "quantifier": "all states of the minimizer, all overlaps, all directions of search, all sequences of steps", "why_tests_cant": "the minimizer runs over continuous rotations; tests can only compare a few directions by finite differences", "anchors": ["jdftx/wannier/WannierMinimizerFD.cpp:WannierMinimizerFD::getOmega", "jdftx/wannier/WannierMinimizerFD.cpp:WannierMinimizerFD::getOmegaI", "jdftx/wannier/WannierMinimizer.cpp:WannierMinimizer::step", "jdftx/wannier/WannierMinimizer.cpp:WannierMinimizer::compute", "jdftx/wannier/WannierMinimizer.cpp:dot"]}
{"id": "C101", "title": "Finite-difference formula on the k-mesh of Wannier calculations", "statement": "For every lattice and every uniform k-mesh, Wannier calculations find a set of mesh offsets b, no two of them opposite, with weights w such that the sum of w b b\u1d40 is the unit matrix up to the symmetry threshold, so that gradients with respect to k are exact for linear functions.", "quantifier": "all lattices and k-meshes, all thresholds, every behaviour of the least-squares solver", "why_tests_cant": "Tests use lattices whose vectors follow the Cartesian axes; which lattices are treated correctly depends on the geometry over all orientations and spacings.", "anchors": ["jdftx/wannier/WannierMinimizerFD.cpp:getFDformula", "jdftx/wannier/WannierMinimizerFD.cpp:WannierMinimizerFD"]}
{"id": "C102", "title": "Forces and stresses due to pseudopotentials are derivatives of the energy", "statement": "The forces that a species returns, from its local part (potential, nuclear charge, charge ball, partial cores) and from its projectors (with the overlap for ultrasoft pseudopotentials), are minus the derivatives of the energy with the positions of its atoms. The stresses are the derivatives with strain, including that the projector stress is computed for six components only. The derivative of projectors with the wave vector is the true derivative. Projectors from the cache equal newly calculated ones.", "quantifier": "All species (radial functions, harmonics, matrices), lattices, atoms, directions, strains, wavefunctions, fillings, gradients with respect to fields; all histories of moves, lattice changes and requests.", "why_tests_cant": "Tests compare with finite differences for a few systems and strains; the statement is about all of them, and the special cases (zero wave vector, absent optional fields, order of updates) are easily missed.", "anchors": ["jdftx/electronic/SpeciesInfo_energy.cpp:getLocalForces", "jdftx/electronic/SpeciesInfo_energy.cpp:getLocalStress", "jdftx/electronic/SpeciesInfo_energy.cpp:accumNonlocalForces", "jdftx/electronic/SpeciesInfo_energy.cpp:getV", "jdftx/electronic/SpeciesInfo_internal.h:updateLocal_calc"]}
{"id": "C103", "title": "DFT+U corrections have consistent gradients, forces and stresses", "statement": "For orbitals with a U correction and external potentials on atoms: the contribution to the gradient of the energy with respect to wavefunctions, the forces and the stresses are derivatives of the reported energy; density matrices have the symmetry of the crystal; the energy does not depend on the basis of the orbitals, is not negative for occupations between zero and one, and zero for occupations that are zero or one.", "quantifier": "all numbers of atoms, orbitals, spins, states, bands and plane waves, all wavefunctions, fillings, weights and changes of them, all groups of symmetries, all displacements and strains", "why_tests_cant": "Finite differences of a few calculations see one structure and one group; the conditions on symmetries under which the gradient of the symmetrized energy can skip the symmetrization hold or fail for all wavefunctions.", "anchors": ["jdftx/electronic/SpeciesInfo_energy.cpp:SpeciesInfo::rhoAtom_computeU", "jdftx/electronic/SpeciesInfo_energy.cpp:SpeciesInfo::rhoAtom_grad", "jdftx/electronic/SpeciesInfo_energy.cpp:SpeciesInfo::rhoAtom_forces", "jdftx/electronic/Symmetries.cpp:Symmetries::symmetrizeSpherical"]}
{"id": "C104", "title": "External potentials on ions have consistent forces and stresses, and metadynamics accumulates its history", "statement": "For Gaussian potentials on a species and for metadynamics on a bond: the forces and stresses are the derivatives of the reported energy, the potentials are periodic, the atoms are the ones selected by the user, and the bias of metadynamics is the sum over steps of one Gaussian with the given width and integral at the bond length of each step.", "quantifier": "all numbers and positions of atoms, lattices, geometries, widths, resolutions, energies per step, earlier potentials, displacements, strains and histories", "why_tests_cant": "The bias accumulates over a history of any length; tests see a few steps of one structure.", "anchors": ["jdftx/electronic/IonicGaussianPotential.cpp:IonicGaussianPotential::energyAndGrad", "jdftx/electronic/Metadynamics.cpp:MetadynamicsBond::energyAndGrad", "jdftx/electronic/IonInfo.cpp:IonInfo::pairPotentialsAndGrad", "jdftx/electronic/IonicMinimizer.cpp:IonicMinimizer::compute", "jdftx/commands/ionic_dynamics.cpp:CommandMetadynamicsBond"]}
{"id": "C105", "title": "Vibrational analysis reports the normal modes of the structure and leaves it where it was", "statement": "The vibrational analysis returns all atoms to their positions; for a harmonic energy that has the symmetries of the structure, the force matrix and dipole derivatives that it assembles from displacements in the irreducible wedge (and from translation symmetry) are those of the energy; translations and rotations are projected out; each reported mode is a solution of the equations of motion, classified and counted correctly; and the vibrational entropy is minus the temperature derivative of the free energy.", "quantifier": "all structures, symmetry groups, constraints of atoms, harmonic energies, displacement amplitudes, one-sided or central differences, cutoffs, resolutions and temperatures", "why_tests_cant": "The reconstruction by symmetry must be right for every group and structure; tests see a few molecules.", "anchors": ["jdftx/electronic/Vibrations.cpp:Vibrations::calculate", "jdftx/electronic/Vibrations.cpp:Vibrations::getSplit", "jdftx/electronic/Vibrations.cpp:Vibrations::getCMcoords", "jdftx/core/Operators.cpp:removePhase", "jdftx/electronic/Symmetries.cpp:Symmetries::findSpaceGroup"]}
{"id": "C106", "title": "DFT-D3 dispersion energy is the published one and its forces and stress are its derivatives", "statement": "With DFT-D3, with zero or Becke-Johnson damping, the dispersion energy is minus half of the sum over ordered pairs of atoms, over the images within the cutoff, of the interpolated C6 coefficient times the damped r^-6 and r^-8 terms. The interpolation weights of the reference systems depend on the coordination numbers, add up to one and are not negative. Coordination numbers are sums of the counting function over all neighbours. Forces and stress are the derivatives of this energy with respect to positions and strain, including the change of the coordination numbers. Forces add up to zero. Nothing depends on the number of processes. Elements without parameters stop the run.", "quantifier": "all numbers of atoms, positions, lattices, truncated directions, elements, tables of parameters, damping forms and numbers of processes", "why_tests_cant": "tests compare a few molecules with reference values to a tolerance; they cannot show that every pair of elements gets its coefficient, or that derivatives through the coordination numbers are right for every geometry", "anchors": ["jdftx/electronic/VanDerWaalsD3.cpp:VanDerWaalsD3::energyAndGrad", "jdftx/electronic/VanDerWaalsD3.cpp:VanDerWaalsD3::computeCN", "jdftx/electronic/VanDerWaalsD3.cpp:VanDerWaalsD3::propagateCNgradient", "jdftx/electronic/VanDerWaalsD3.cpp:VanDerWaalsD3::setNeighborSampling", "jdftx/electronic/VanDerWaalsD3.cpp:D3::getPairParams", "jdftx/electronic/VanDerWaalsD3.cpp:D3::AtomParams::getL", "jdftx/electronic/VanDerWaalsD3.cpp:D3::getAtomParams"]}
{"id": "C107", "title": "Mixing in the self-consistent field method conserves electrons, keeps self-consistent states and resumes from its file", "statement": "In the self-consistent field method each new density or potential is the combination of earlier ones, with coefficients that add up to one, for which the combined residual is smallest in the chosen metric, plus the preconditioned residual. The mixing fractions are positive and at most the requested ones. A mixed density has the same number of electrons as those that enter. A state with zero residual is not changed. The result does not depend on the choice of spin axes. The history that is saved is the one that is read again, and files of a wrong size stop the program. The reported change of the eigenvalues is the weighted root mean square, for every number of processes. The smallest wave vector of the preconditioner is that of the shortest reciprocal lattice vector.", "quantifier": "all grids, lattices, spin modes, histories of any length, sequences of cycles, mixing parameters, densities or potentials, and numbers of processes", "why_tests_cant": "each cycle depends on all earlier ones; tests see a few cycles of a few systems that converge", "anchors": ["jdftx/electronic/SCF.cpp:SCF::SCF", "jdftx/electronic/SCF.cpp:SCF::minimize", "jdftx/electronic/SCF.cpp:SCF::precondition", "jdftx/electronic/SCF.cpp:SCF::applyMetric", "jdftx/electronic/SCF.cpp:SCF::dot", "jdftx/electronic/SCF.cpp:SCF::eigDiffRMS", "jdftx/core/Pulay.h:Pulay::minimize", "jdftx/core/Pulay.h:Pulay::saveState"]}
{"id": "C108", "title": "The Davidson band solver keeps an orthonormal set and only lowers energies", "statement": "For a fixed Hamiltonian, each iteration of the Davidson solver replaces the working set by the lowest solutions in the space of the set and of the normalized preconditioned residuals of the bands that are not done. The result is orthonormal, the Hamiltonian between the bands is diagonal with the ascending energies that are reported, the projections belong to the wavefunctions, no energy is higher than that of the starting space, and each is at least the corresponding exact one. Each iteration lowers the sum of the energies. When the solver says that it converged, the energies of the bands that count changed by no more than the threshold, or no residual is left. It ends with the lowest bands for every regular Hamiltonian and start.", "quantifier": "every Hermitian Hamiltonian, positive overlap, starting set, working set ratio, threshold, number of iterations and LAPACK that meets its specification", "why_tests_cant": "that energies never rise and bound the exact ones holds for all matrices and all numbers of dropped residuals; tests see a few systems, and the exits on parallel residuals and constant wavefunctions need special ones", "anchors": ["jdftx/electronic/BandDavidson.cpp:BandDavidson::minimize", "jdftx/electronic/ColumnBundleOperators.cpp:precond_inv_kinetic_band", "jdftx/core/matrixLinalg.cpp:orthoMatrix", "jdftx/electronic/ElecVars.cpp:ElecVars::applyHamiltonian"]}
{"id": "C109", "title": "Band edges, potential and quasiparticle gap of the GLLB-sc functional", "statement": "The band edges are the largest energy of bands at least half filled and the smallest of those at most half filled, over all processes however the states are divided; with smearing they are averages that never cross the Fermi level. The potential is an average of the terms of the bands, does not depend on the zero of energy, and the discontinuity potential is not negative and at most the constant times the root of the gap. Quasiparticle energies are never below the band energies, those of occupied bands of an insulator are unchanged, and the printed gap is the gap of the bands plus the printed contribution, which is not negative. (It fails with smearing when every band is filled or empty, and in a spin without electrons: the results are not numbers.)", "quantifier": "all numbers of states, bands, grid points and processes, all energies, fillings, weights and densities", "why_tests_cant": "the claims involve all spectra and all ways of dividing states among processes, and the result of an eigenvalue solver; tests see a few materials", "anchors": ["jdftx/electronic/ExCorr_OrbitalDep_GLLBsc.cpp:ExCorr_OrbitalDep_GLLBsc::getExtremalEnergy", "jdftx/electronic/ExCorr_OrbitalDep_GLLBsc.cpp:ExCorr_OrbitalDep_GLLBsc::getPotential", "jdftx/electronic/ExCorr_OrbitalDep_GLLBsc.cpp:ExCorr_OrbitalDep_GLLBsc::dump", "jdftx/electronic/ExCorr_OrbitalDep_GLLBsc.cpp:smoothedSqrt"]}
{"id": "C110", "title": "The file of matrix elements for configuration interaction lists each integral once, with its own value", "statement": "For every number of processes the file of matrix elements has each Coulomb integral of four orbitals exactly once for ordered pairs that have the same spin and conserve the wave vector, except those below the threshold; the value on each line is the integral of the orbitals whose numbers are on that line, although wavefunctions and pair densities are kept between elements; orbitals are numbered without gaps; no process, even one without work, reads bands that do not exist; and each pair of bands has its one-particle element once. For real wavefunctions at one k-point all integrals follow from those in the file. (It fails with several k-points: some integrals and all their equivalents are missing.)", "quantifier": "all numbers of processes, states and bands, all spins, k-points and wavefunctions", "why_tests_cant": "the position in a loop over four indices is recovered from a single number on each process and caches are updated selectively; tests see a few numbers of bands and processes", "anchors": ["jdftx/electronic/DumpExcitationsMoments.cpp:dumpFCI", "jdftx/electronic/DumpExcitationsMoments.cpp:splitDoubletIndex", "jdftx/core/MPIUtil.cpp:TaskDivision"]}
{"id": "C111", "title": "The file of excitations lists each pair of an occupied and an empty band, and its gaps are those of all states", "statement": "For every number of processes, the file of excitations has one line for each pair of an occupied and an empty band of the same state, with the difference of their energies, in ascending order; the direct gap is the smallest of these; the highest occupied and lowest empty energies are those of all states on all processes and belong to the bands that are given; the indirect gap is their difference and not larger than the direct one; nothing is written exactly when some state has no empty band; and the strengths are those of the dipole between the bands. (It fails for states without occupied bands, for complex wavefunctions and for spinors.)", "quantifier": "all numbers of processes, states and bands, all energies, fillings and wavefunctions", "why_tests_cant": "results of processes are packed into messages and merged; tests see few processes and seldom a spin channel without electrons", "anchors": ["jdftx/electronic/DumpExcitationsMoments.cpp:dumpExcitations", "jdftx/electronic/ElecInfo.cpp:findHOMO"]}
{"id": "C112", "title": "The Hamiltonian of density augmentation is the gradient of its energy", "statement": "For every ultrasoft pseudopotential with projectors up to f, each element of the augmentation density is the sum over states and all ordered pairs of projectors of the coefficient of its radial function and harmonic, at its own atom and spin component; for every potential the energy of that density is the sum of fillings times expectation values of the Hamiltonian that the gradient routine adds; that Hamiltonian is Hermitian; the derivative routine computes the derivative of the density; all elements are within the arrays; and radial functions are looked up independent of the order of the two projectors.", "quantifier": "all projectors up to f, atoms, states, fillings, projections, potentials, and spin types, with or without relativistic transformation", "why_tests_cant": "The density loops over half of the pairs with factors of two, phases and spin components, and the gradient does so independently; tests compare finite differences for a few pseudopotentials and spin types.", "anchors": ["jdftx/electronic/SpeciesInfo_augment.cpp:augmentDensitySpherical", "jdftx/electronic/SpeciesInfo_augment.cpp:augmentDensitySphericalGrad", "jdftx/electronic/SpeciesInfo_augment.cpp:QijIndex::operator<"]}
{"id": "C113", "title": "Parameters of a command are its words, and none is dropped silently", "statement": "A command gets the words of its line in order, each as one parameter, and defaults for optional parameters that are missing; a missing required parameter, a word that is not one of the options, a word that is not a number or a number out of range, and words that are left over are errors; the error shows the words that are left. (It fails for words that start with a whole number, such as 10.5 for a command with an integer and another parameter, which are taken as two; and after errors that a command catches.)", "quantifier": "all texts, all commands that read strings, options and whole numbers in any order, with any defaults, catching any errors and going back", "why_tests_cant": "whether a word is lost depends on flags of the stream that earlier calls left and on white space at the end; tests see a few correct input files", "anchors": ["jdftx/commands/ParamList.h:ParamList::get", "jdftx/commands/ParamList.h:ParamList::getRemainder", "jdftx/commands/ParamList.h:ParamList::rewind", "jdftx/commands/parser.cpp:safeProcess"]}
{"id": "C114", "title": "Energy components add up, and the last number of the printout is the free energy that is minimized", "statement": "Each energy component has the value last set plus what was added since, independent of other components and of the case of its name; the total follows every change; the components that are printed add up to the printed Etot even when zero ones are left out and numbered ones share a line; each line has its own name and is the sum of the components of that name; F and G follow from the numbers printed above them; and the last number is the free energy that is minimized.", "quantifier": "all sequences of assignments and increments of components with any names, all values, entropies and chemical potentials, all modes", "why_tests_cant": "components are set in many places in an order that depends on the calculation, and names merge by case and trailing digits; tests look at single totals", "anchors": ["jdftx/core/EnergyComponents.h:EnergyComponents", "jdftx/electronic/Energies.cpp:Energies::print", "jdftx/electronic/Energies.cpp:relevantFreeEnergy"]}
{"id": "C115", "title": "Wavefunctions read from a file keep their coefficients when the number of bands or the cutoff differs", "statement": "For every number of bands and every cutoff of the file, each band of the calculation that is in the file has the coefficients of the file for the plane waves that both have and zero for the others, for each spinor component; bands that are not in the file are as before; taking a column or a range of columns and putting it elsewhere copies it and changes nothing else; no access is outside the allocation.", "quantifier": "all numbers of bands, spinor components and plane waves, all positions of plane waves, all contents of the file, all conversions", "why_tests_cant": "tests read one file with one change of the number of bands or the cutoff; the property is for all combinations", "anchors": ["jdftx/electronic/ColumnBundle.cpp:ElecInfo::read", "jdftx/electronic/ColumnBundle.cpp:ColumnBundle::getColumn", "jdftx/electronic/ColumnBundle.cpp:ColumnBundle::setColumn", "jdftx/electronic/ColumnBundle.cpp:ColumnBundle::getSub", "jdftx/electronic/ColumnBundle.cpp:ColumnBundle::setSub", "jdftx/core/BlasExtra.cpp:eblas_scatter_axpy_sub"]}
{"id": "C116", "title": "The dipole moments of the file are those of the charges around the centre", "statement": "For every cell, mesh, density, centre and all atoms, the electronic and ionic moments of the file are sums over mesh points and atoms of the charge times the position of the image in the Wigner-Seitz cell around the centre, in the truncated directions; the total is their sum; moving the density, the atoms and the centre together changes the total by the net charge times the displacement, so not at all for a neutral system, if no electrons are on the boundary of the cell; in periodic systems all moments are zero.", "quantifier": "all lattice vectors, mesh sizes, densities, centres, species, positions and displacements by multiples of the mesh", "why_tests_cant": "tests compute the moment of one molecule at one position in one cell", "anchors": ["jdftx/electronic/DumpExcitationsMoments.cpp:dumpMoment", "jdftx/core/WignerSeitz.h:WignerSeitz::reduce", "jdftx/core/Coulomb.cpp:CoulombParams::isTruncated"]}
{"id": "C117", "title": "Positions with overlapping atoms are rejected, and only those", "statement": "For every cell and all species and positions, the check accepts the positions exactly if no two atoms in any images are on top of each other or closer than the sum (or the vector sum) of their core radii, according to the chosen condition. (It fails in cells without right angles, where the closest image can be missed, for images of the same atom, and for atoms without core radius.)", "quantifier": "all lattice vectors, species, core radii, positions and conditions", "why_tests_cant": "tests check few atoms in one cell, mostly cubic", "anchors": ["jdftx/electronic/IonInfo.cpp:IonInfo::checkPositions", "jdftx/electronic/IonicMinimizer.cpp:IonicMinimizer::compute", "jdftx/electronic/LatticeMinimizer.cpp:LatticeMinimizer::compute"]}
{"id": "C118", "title": "A fluid molecule is made neutral and its bonds are counted once", "statement": "The charge reported for a solvent molecule is the sum over all its atoms. If it is below a hundredth of an electron, checking it leaves the molecule neutral by changing the first charged site only, without changing any nuclear charge, position or radius; otherwise nothing is changed and the charge is returned. The dipole moment is the sum of charge times position and, for a neutral molecule, does not depend on the origin. The list of bonds has every unordered pair of touching hard spheres exactly once, and the assertion that all counts are even cannot fail.", "quantifier": "All molecules: all numbers of sites with at least one atom each, all positions, radii and charges, all displacements", "why_tests_cant": "The assertion and the search for a charged site depend on arbitrary geometries and charges; tests can only use a few named solvents.", "anchors": ["jdftx/fluid/Molecule.cpp:getCharge", "jdftx/fluid/Molecule.cpp:checkCharge", "jdftx/fluid/Molecule.cpp:getDipole", "jdftx/fluid/Molecule.cpp:getBonds"]}
{"id": "C119", "title": "Radial weights integrate natural cubic splines exactly", "statement": "For every grid of at least two increasing non-negative radii, the weights computed for the grid give the integral of every natural cubic spline through the samples exactly, in particular for constant and linear functions; no division by zero occurs; and the spherical Bessel transform of the function at zero wavevector is this integral.", "quantifier": "All numbers of samples, all increasing grids including those that start at zero, all sample values", "why_tests_cant": "The claim is about all grids and all functions; tests can compare a few integrals to a tolerance, which hides wrong end corrections.", "anchors": ["jdftx/core/RadialFunction.cpp:RadialFunctionR_initWeights_sub", "jdftx/core/RadialFunction.cpp:initWeights", "jdftx/core/RadialFunction.cpp:transform", "jdftx/core/RadialFunction.h:RadialFunctionR"]}
{"id": "C120", "title": "Band unfolding lists every unit-cell k-point once", "statement": "For each supercell k-point, band unfolding lists unit-cell k-points in (-1/2, 1/2], no two of which differ by a reciprocal lattice vector, such that every plane wave of the basis belongs to one of them, although the loop over plane waves stops early. There are as many as unit cells in the supercell, and the file has one weight for each of them and each band, in the order of the header.", "quantifier": "All invertible integer supercell matrices, all supercell k-points, all lists of plane waves, all numbers of bands", "why_tests_cant": "That the early stop loses nothing depends on the number of classes of integer vectors being the determinant, for every matrix; tests cover a few diagonal supercells with large bases.", "anchors": ["jdftx/electronic/DumpExcitationsMoments.cpp:dumpUnfold", "jdftx/electronic/ElecInfo.cpp:write"]}
{"id": "C121", "title": "Resampling evaluates the sum of cubic splines on all mesh points", "statement": "Resampling a field from one grid to another gives, at each output point inside the input Wigner-Seitz cell, the sum over all points of the input mesh, repeated periodically, of the coefficient there times the product of three cubic splines centred there, and zero outside. The value has the periods of the input lattice, a constant field keeps its value, and no coefficient outside the array is read.", "quantifier": "All mesh sizes of at least two points in each direction (grids with a cutoff have at least four), all coefficients, all points, all lattices", "why_tests_cant": "Wrapped indices matter only near cell faces and for small meshes; tests compare smooth fields to a tolerance on a few meshes.", "anchors": ["jdftx/core/Blip.cpp:blip", "jdftx/core/Blip.cpp:resample_sub", "jdftx/core/Blip.cpp:BlipConverter", "jdftx/core/Blip.h:BlipResampler"]}
