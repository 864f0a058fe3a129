# Formal model of JDFTx: design

Source: `/repo` (shankar1729/jdftx, pinned commit), read as text only. Nothing was built or run.
Prover: Lean 4.33.0 with single Mathlib modules. Library root `lean/Verif.lean`.

## Layout

* `Verif/Model/*.lean`  definitions that follow the C++ function by function; each carries a comment
  citing file and lines, and says where it simplifies.
* `Verif/Spec/*.lean`   small specifications, independent of the model helpers (only core/Mathlib notions).
* `Verif/Lemmas/*.lean` helper lemmas.
* `Verif/Props/*.lean`  the property theorems `Cnn_...`, each with an `example` showing that its hypotheses
  are met by a concrete non-trivial case.

## Conventions

* Machine integers are `Nat`/`Int` unless the property is about bits (`BitVec`); no overflow is modelled
  otherwise. Doubles are elements of an exact ordered field (`ℚ`, `ℝ` or any `LinearOrderedField`-like
  type): rounding, NaN and infinities are not modelled except where a non-finite energy is part of the
  property, in which case it is an explicit extra value.
* Undefined behaviour (out-of-range access, empty `front`, division by zero, non-terminating loop) is a
  distinct outcome (`Option`/`Except`/an inductive outcome), never a default value.
* Threads and processes: interleaving semantics of explicit atomic steps; the proofs quantify over all
  schedules. C++ memory-model weaker than sequential consistency is not modelled.
* External calls (system allocator, LAPACK, FFTW, MPI, OS environment) are parameters with the assumed
  behaviour stated as hypotheses.

## Trusted base

Lean's kernel; the axioms `propext`, `Classical.choice`, `Quot.sound` and no others (AXIOMS.md lists, for every
theorem in MANIFEST.json, which of them it uses); the reading of `/repo` recorded in the citation comments.

## Plan per property (model, proof shape)

| id | modelled | proof |
|---|---|---|
| C01 | `TaskDivision::init/start/stop/whose` on Nat | arithmetic of `N*(i+1)/P`; `upper_bound` spec on sorted list |
| C02 | `threadLaunch` range computation, `threadedLoop_sub` incl. `nJobs==0` mode | concatenation of ranges equals `List.range nJobs`; negation for `nJobs=0` |
| C03 | thread programs as atomic steps (local add, lock, read, write, unlock), global state | invariant over all reachable states of the interleaving semantics |
| C04 | flag machine for suspend/resume/threadLaunch call trees | negation by witness; partial: trees without explicit nested thread counts |
| C05 | read/modify/write steps per job, arbitrary interleaving | invariant; witness of lost update with colliding indices |
| C06 | block loop of `MPIUtil::fread/fwrite` | concatenation of blocks = buffer; size bound |
| C07 | `checkErrors` as collective over list of messages | direct, spec = rank-order concatenation |
| C08 | file as byte array, per-process writes at offsets from C01 | commuting disjoint writes, any permutation/interleaving |
| C09 | `MemCache` with oracle allocator | invariant over op histories; functional spec of alloc |
| C10-C12 | `ProcessedCommandMap`, pass levels, `safeProcess`, parse loop | induction on DFS fuel = number of commands; sorting by level; witnesses for cross-section forbids |
| C13 | `environmentSubstitute` as loop with fuel | termination for reference-free values; non-termination proof for self reference |
| C14 | broadcast serialisation | round trip under no-newline; witness otherwise |
| C15 | `readLine` | refinement to a spec on lists of physical lines |
| C16 | include recursion with stack | measure = files not on stack |
| C17 | `Citations` list insert + print | negation by witness; partial statements that hold |
| C18 | `EnumStringMap` | round trip |
| C19-C20 | `GridInfo` index functions and loop macros | mixed radix bijection; loop invariant; non-terminating empty range |
| C21-C23 | half/full Fourier grids, `changeGrid`, Real/Complex, dot | finite sums over `Fin`, bijections; witness for odd size |
| C24-C25 | auto FFT box, `fftSuitable` | number theory; divergence at 0 |
| C26 | `reduceMatrix` | invariants + well-founded termination by decreasing norm with threshold |
| C27 | `getSymmetries` | filter spec, group closure |
| C28 | `WignerSeitz::reduce` | decreasing squared norm by fixed amount |
| C29 | `getNeighbours` | witness |
| C30 | `PeriodicLookup` | completeness via floor/mesh neighbour argument |
| C31 | `kpointsFold` | field arithmetic, sums over product ranges |
| C32 | `reduceKmesh` | orbit argument over finite group action |
| C33 | `symmetrize` | averages over orbit classes |
| C34 | `SpaceGroupOp` | `ring`-type identities over integer matrices of determinant ±1 |
| C35 | `Basis::setup` | Cauchy-Schwarz bound |
| C36-C37 | `linminQuad`, `linminCubicWolfe`, `linminRelax`, `minimize` | ghost displacement, oracle energies; witness for `linminQuad`; partials |
| C38 | `EdiffCheck`, `NormCheck` | history invariant on deque |
| C39 | CG loops | invariant over any module |
| C40 | `Pulay` | Gram matrix invariant; witness for re-entry |
| C41 | `fdTest` | telescoping |
| C42 | quintic spline | polynomial identities |
| C43 | `findMu` | bisection measure |
| C44 | fillings | induction on bands |
| C45 | tetrahedron DOS | Bernstein integral identities, case split on degeneracy |
| C46-C47 | velocity Verlet, running mean | algebra + induction |
| C48 | endian conversion | involution on byte lists |
| C49 | `kmapPack` | BitVec / Nat arithmetic |
| C50-C52, C60 | matrix blocks, tiled blocks, zgemm split, det | index arithmetic; witnesses for wrong asserts, wrong offsets, wrong sign |
| C53 | gradient/divergence | pointwise identities summed |
| C54-C55 | dump names and frequency | substitution loop; arithmetic |
| C56 | Euler angles | real trigonometry with `Complex.arg` |
| C57 | cell-map weights | normalisation |
| C58 | scaled fields | refinement to plain fields |
| C59 | `ColumnBundleTransform` | scatter/gather inverse |
| C61 | `constrain`, `IonicConstraint::isEquivalent`, hyperplane groups | linear projections; witnesses for non-orthogonal groups |
| C62 | `WignerSeitz::boundaryDistance`, in-radius | distance to the faces, minimum over a list |
| C63 | dense products with operand modes and sub-blocks | sums over the shared index |
| C64 | conversion of scaled/transposed operands, traces, norms | pointwise; witness for the norm |
| C65 | smearing functions and their entropies | real analysis (derivatives), monotonicity |
| C66 | spinor rotations | unitarity and the double cover, by half-angle identities |
| C67 | `Minimizable::lBFGS` | two-loop recursion refined to the product form of the inverse Hessian, invariant over iterations; witness for preconditioned directions |
| C68 | `LatticeMinimizer` constructor, `constrain`, `step` | linear projections, invariant over steps; witness for the undo |
| C69 | `Coulomb` embedding: index maps, boundary classes, expand/shrink, `operator()` | boundary averaging as a symmetric weight matrix; adjointness by exchanging sums; witness for odd meshes |
| C70 | `EwaldPeriodic`, `EwaldSlab`, `EwaldIsolated`: energies, forces, stresses | loops as finite sums over the reals; `HasDerivAt` along a displacement of one atom or a strain of the lattice; antisymmetry of pair forces |
| C71 | `vdwPairEnergyAndGrad`, `VanDerWaalsD2::energyAndGrad` on several processes | half-space cell loop and task division of C20/C01; half-space sum with weights is half of the full sum; `HasDerivAt` as in C70 |
| C72 | The local density functionals at one grid point, real arithmetic: Slater, Thomas-Fermi, PZ, PW, PW-prec, VWN, Teter, both spin interpolations, assembly into energy density and potentials. | Specification: the published formulas. Energies by algebra; potentials by the chain rule through rs and zeta, along every direction in the space of spin densities; symmetry and limits by algebra; the jump of Perdew-Zunger at rs = 1 as a witness. |
| C73 | The four functions on spin density matrices at one grid point, with and without the aliasing of the two gradient arrays. | Specification: complex 2x2 matrices, unitary conjugation, characteristic polynomial. Scalar products of vector parts are traces of products, which rotations keep; eigenvalues by algebra and a bound on the regularised root; derivatives by the chain rule along curves. |
| C74 | ExCorr::operator() for all spin modes, functionals as parameters with pointwise derivatives, Fourier transforms by their definition on the half space, division of points and directions over processes, collection. | Transforms are adjoint pairs, so the gradient and Laplacian parts integrate by parts; chain rule through the spin-diagonal basis (C73) and the contraction; every share is summed once (C01). Noncollinear gradient functionals on two processes: witness of disagreement on a grid of four points. |
| C75 | States: `kpointsReduce` after the mesh reduction (spin weights, second spin channel, offsets for perturbations), composed with the models of C31, C32, C44 | weighted sums of symmetric functions by exchanging sums over orbits; total electrons through C44 |
| C76 | Cavity: `ShapeFunction` and `ShapeFunctionSCCS` compute and gradient at each grid point, with exact erfc, log and sin | derivative of each branch, agreement where branches meet, chain rule for any energy of the shape |
| C77 | CavityGrid: CANDLE at each point, with Fourier gradients and divergences on the grid; SGA13 density expansion | derivative at one point; adjointness of gradient and divergence; chain rule for any energy |
| C78 | The transforms of Model.ExCorr: I, J, Idag, Jdag on the half space, by the definition of the discrete Fourier transform | orthogonality of phases, pairing of opposite vectors |
| C79 | SoftSphere: shape function as product over atoms and replicas with wrapping, gradients with the code's cutoffs, accumulation over the grid | derivative of products along lists, derivative of the wrapped distance |
| C80 | Screening and Dielectric evaluators of the nonlinear PCM: constructors, bisection searches (with fuel), tables, spline lookup (C42), per-point energies and derivatives, over reals | termination from limits of the root functions at 0 and 1 (ions) and two-sided linear bounds (dipoles); bracketing by loop invariants; derivatives by the chain rule, at zero field by a product lemma |
| C81 | LinearPCM: hessian, preconditioner, Coulomb operator, energy and derivatives, on half-space arrays with the transforms of C78 | the operator's form becomes a sum over grid points (adjointness of gradient and transform, C53/C78); derivatives along arbitrary curves by the chain rule; variational identity by symmetry; needs `dot` to count vectors once (C23), hence partial |
| C82 | NonlinearPCM: compute, set_internal, energy and derivatives, nonlocal kernels as arbitrary real multipliers, response functions as parameters with derivatives (C80 supplies them) | chain rule along curves, adjointness of gradient, transform and kernels; partial for the same reason as C81 |
| C83 | Both conjugate-gradient solvers (model of C39), with the specification `SPD` of the hypotheses on operator and preconditioner, `energy` and `Optimal` | Conjugacy and orthogonality by strong induction on the iteration; at most dimension many conjugate directions exist; what the perturbation solver keeps as its best state, by invariant |
| C84 | `LinearSolvableIndefinite::MINRES`, with divisions by zero as an explicit outcome; specification: `Symm`, `residualNorm`, `krylov` | Invariant of the Lanczos vectors, rotations and residual by induction over iterations; dimension count for convergence |
| C85 | electronic minimiser: step, gradient, frames, free energy over exact complex matrices; energy of the density matrices, LAPACK and the search of the chemical potential as parameters with stated assumptions | Daleckii–Krein derivative of matrix functions, Cholesky factor stationary at the identity, implicit derivative of the chemical potential; invariant of the frames by induction over the steps; witnesses for the modes where it fails |
| C86 | functions of matrices (pow, invsqrt, cis, cisInv and gradients) over exact complex matrices, diagonalisation as parameter; rotations of the Wannier minimiser, compressed exchange | independence of the eigenvectors from the intertwining matrix of two diagonalisations; Daleckii–Krein derivative conjugated to any Hermitian matrix; trace identity for the closest orthonormal set; kernel of a positive semidefinite form for compressed exchange |
| C87 | gradient-corrected functionals of ExCorr_internal_GGA.h point by point (PBE, PBEsol, PW91 exchange and correlation, screened PBE, von Weizsäcker, PW91k, GLLB-sc, LB94), then on the grid through the model of C74 | chain rule along curves of densities and squared gradients, with one-sided derivatives at zero gradient; published forms compared algebraically; bounds from monotonicity of the enhancement factor and negativity of the correlation energy |
| C88 | `bessel_jl`, all of `YlmInternal::Ylm<lm>`, `expandYlmProd`, `YlmPrime` with their decimal constants | Computation with integer polynomials checked by the kernel, transferred to every unit vector by a bound on the sum of coefficients; square roots and pi enclosed by rationals; power series of the Bessel functions from those of sine and cosine by the recurrence, tail bounded by a geometric series |
| C89 | `thermostat`, `computeKE`, `computePressure`, `initializeVelocities`, the count of degrees of freedom, the lattice part of `constrain`; atoms' constraints from C61 | Rate of change of the extended energy by calculus and a telescoping sum over the chain; dimension of the range of the constraint as a product of submodules; stationarity from the trace of the flow's derivative |
| C90 | `findSpaceGroup`, the filters for fields and displaced atoms, `sortSymmetries`, `initAtomMaps`, `isEquivalent`; the lookup table from C30. Crystals must not be marginally symmetric (`Sharp`) for the group property; soundness of any successful run does not need this | Each candidate offset determines a permutation of the atoms; the refined offsets make the deviations sum to zero, so that the offset of a product differs from the product of offsets by an exact lattice vector; averaging over the group makes the corrected positions exact |
| C91 | The four analytic kernels, their matrices, the sum over the half-space grid, the default radius of the sphere. Not modelled: numerical kernels (wire, cylinder, Wigner-Seitz) | Reference: integrals of the potentials over sphere and slab, wave vectors defined by their products with the lattice vectors. Integrals by antiderivatives; limits over all space from Gaussian integrals; derivatives along `R + t e R` from the derivative of the wave vector |
| C92 | The analytic exchange kernels with offset, `truncatedErfcTilde` (quadrature exact), the correction from a screened point charge, `Vzero` and `Vzero_RRT`, the three index computations. Not modelled: splines, auxiliary-function correction (C31 has its integral), unscreened Ewald correction beyond its derivative as a hypothesis | As C91; the grid must be clear of the threshold (`Clear`). Index theorems: the kernel array holds a function on the grid, the entry read is its value at the intended wave vector |
| C93 | Excess functionals of fluids on the Fourier grid of C60: weighted densities, hard spheres (White Bear II), bonds, scalar equations of state, quadratic functionals, fitted correlations; energy, gradient and the uniform-fluid versions (`Model/FluidEx`, `Model/FluidFex`) | derivative of the composed energy by the chain rule at each point and adjointness of each Fourier operator; uniform fields reduce to one point; Taylor bounds on the logarithm for the series branches |
| C94 | Spline and Fourier translation operators over the reals, index arithmetic with C's truncating remainders | Reduction of remainders to floor; shifts as permutations of the periodic grid; interpolation weights reflected by negation; orthogonality of plane waves |
| C95 | The density functional of a mixture: ideal gases (monoatomic; rigid molecules in three representations), electrostatics, hard spheres, equations of state, pair terms, scale factors for prescribed numbers and neutrality, Newton's method | Contracts for gases and contributions along curves of states; implicit derivative of the neutral potential; adjoints of translations and kernels; the correction for scale factors cancels. Counterexamples by evaluation on one grid point |
| C96 | The search for the bulk density, the uniform fluid, its pressure and chemical potentials, the mixture at zero independent fields | Invariants of bracketing and bisection with comparisons that fail on NaN, intermediate value theorem, geometric bounds for termination; derivative along curves of uniform densities; uniform fields through all kernels and translations. Counterexample: ideal gas under tension |
| C97 | Exact exchange (ExactExchange.cpp): division of bands, unique transforms of pairs of k-points, energy and gradient over plane waves, compressed operator. Scalar orbitals, no aliasing, no stress | counting over the flattened list of bands; reindexing of sums over plane waves by unimodular maps; composition and inverses of space-group operations (C34); pseudo-inverse square root (C86) |
| C98 | Phonon.cpp: `getCell`/`getUnit`, `dgradSymmetrize`, distribution over the cell map, `forceMatrixGammaPrimeFix`, `forceMatrixHermCheck`, squared frequencies, free energies, `getQuadratureBZ`, over exact real and complex numbers (quadrature over rationals). Electron-phonon matrix elements and file output are not modelled. | The refined gradients are the orthogonal projection on symmetric gradients without net force (discrete Fourier inversion); the cell map of C57 pairs opposite cells; the correction solves its linear system, which is regular when distances spread in all periodic directions; free energies equal those of the levels of harmonic oscillators; weights of the quadrature telescope over the scales. |
| C99 | Phonon_init.cpp: choice of directions, irreducible displacements with projections, merging and signs, manual symmetries; Phonon_supercell.cpp: net force, images of displacements. Model: `Model/PhononPert.lean`. | Sums over the operations are turned into sums over the whole space group (cosets of the translations), whose reindexing gives completeness of the projections and cancellation of the even part; loops as sums by induction over lists; Bessel's inequality for the directions. |
| C100 | `Model/Wannier.lean`: overlaps, centers, spreads, derivatives by overlaps, propagation to rotations, gradient, steps. MPI and the source of the overlaps are not modelled | derivative of `cis` on a line of Hermitian matrices, chain rule through U = U1 U2 and the overlaps; invariant over lists of steps; algebra with the exact finite-difference formula; Bessel's inequality |
| C101 | Finite-difference formula of Wannier calculations: list of neighbours, removal of inversion partners, shells, equations with the solver as a parameter, loop over orthogonal subspaces; exactness by substitution check plus an invariant over blocks. | Partial: blocks aligned with Cartesian directions; negations for the others. |
| C102 | Model/Psp.lean: structure factors, local fields and their gradients, projectors with their position, strain and wave-vector derivatives, nonlocal energy, forces and stress, projector cache as a state machine | derivatives at zero along displacements and strains of arbitrary energies with the given gradients (local) and of the projector energy with the overlap term (nonlocal); the symmetric stress from six components needs rotational symmetry of the sum over projectors, used through three rotation curves; cache by invariant over histories. Harmonics and radial functions are parameters with their derivatives (C88 is about the harmonics) |
| C103 | DFT+U: density matrices from projections, symmetrization, energy, gradient, forces and stress (`SpeciesInfo_energy.cpp:54-200`, `Symmetries.cpp:251-277`); orbitals as in C102, one process, no spin-orbit transformation | energy as a function of projections; the gradient commutes with the operations, so its inner product with symmetrized changes equals that with the changes; chain rule; rotations for the copied half of the stress. Witnesses for s orbitals and for external potentials that break the symmetry |
| C104 | Model/IonicExt: Gaussian potentials on ions in three geometries, selection of atoms, extension and update of the bond potential, its interpolation and forces, and the two evaluations per step | derivatives of the energies; the potential as a fold over the history; negations by examples |
| C105 | `Model/Vibrations`: constraints to directions, loop over modes with the flags of the irreducible wedge, table of inverse rotations, displacement steps, finite differences, symmetrised accumulation, rows from translation symmetry, projection, frequency matrix, classification, degeneracies, thermodynamics, `removePhase`, split of the cell. Forces and dipole are functions of the displacement | Invariant of the loop over modes; frame identities for directions; covariance of a harmonic energy under the group; calculus for the free energy; largest gap on the circle. Eigenvectors, `invsqrt` and the dipole operator on the grid are parameters |
| C106 | DFT-D3: element parameters, interpolation weights and their derivative, the coefficient matrix as it is stored and read, damped potentials, coordination numbers, the cell loops over processes, propagation of the coordination gradient; tables are parameters | closed forms as weighted sums over the half box, derivative along a path of squared distances with the chain rule through the coordination numbers; table entries of hydrogen and lithium for the negation |
| C107 | SCF.cpp: kernels, variables, inner product, files, change of eigenvalues; Pulay.h as in C40 | Positive definiteness of the inner product makes the stationary combination the smallest; linear functionals of densities are conserved by induction over the cycles; rotations of the spin axes keep the inner product; reading inverts writing. Negations by a rotated potential and a skewed lattice. |
| C108 | Davidson.lean: `start`, `residual`, `correction`, `compact`, `iteration`, `loop`, `minimize` | Rayleigh-Ritz: interlacing by a dimension count, Ky Fan sums, a two-dimensional argument for strict progress; induction over the iterations |
| C109 | `ExCorr_OrbitalDep_GLLBsc`: the band edges with and without smearing over lists of processes, the smoothed root, the potential on the grid, the matrix of the discontinuity, quasiparticle energies by LAPACK, the printed gap (Model/GLLBsc.lean) | Folds for the edges; derivative of the smoothed root and the tail bound of the error function; bounds of weighted sums; Weyl's inequality and interlacing for quasiparticle energies |
| C110 | `dumpFCI`, `splitDoubletIndex`: the index arithmetic, the caches and their selective updates, the division over processes, the filter and numbering (Model/FCI.lean) | Bijection between positions and index quadruples; invariant that the loop is at a position with caches in step; induction over the loop; the partition of C01 |
| C111 | `dumpExcitations`, `findHOMO`: the loop over states with its break, messages between processes as arrays of numbers, the merge on the head process, sort and report (Model/Excite.lean) | Round trip of the messages; merging processes commutes with a step of the loop, so that the file is that of one process; invariants of the band edges by induction over states |
| C112 | `augmentDensityInit`, `augmentDensitySpherical`, `augmentDensitySphericalGrad`, `QijIndex`: projectors, density matrices of atoms, spin components, the loop over half of the pairs, look-up of radial functions, and the gradient (Model/Augment.lean). Not modelled: radial functions on the grid, calls for a single atom, the value of `fljAll` | Sums over half of the pairs with factors of two are sums over all pairs for Hermitian matrices; splitting and collating spin components are adjoint under the trace; columns of the arrays are injective; density is quadratic in projections |
| C113 | Stream with flags `eofbit` and `failbit`, the calls `get` for strings, options and `int`, `rewind`, `getRemainder`; commands as trees of calls | By words: induction over the run, the stream agrees with the list of words not yet read |
| C114 | `EnergyComponents` as a sorted list with case-insensitive names, `print`, `Energies::print`, `relevantFreeEnergy` | Values and total from the history of operations, by induction over it; the loop of `print` by an invariant |
| C115 | Bands, components and plane waves as positions in the data; columns, ranges of columns and the conversion while reading (electronic/ColumnBundle.cpp) | Scatter and gather by induction on plane waves; the conversion by induction on the columns that were converted; places of different coefficients differ |
| C116 | Loops over mesh points and atoms, reduction around the centre, periodic directions set to zero (electronic/DumpExcitationsMoments.cpp dumpMoment) | Nested loops as sums by induction; positions by C28; displacement by shifting sums of periodic functions |
| C117 | The four loops over pairs of atoms, wrapping of differences per component, the conditions (electronic/IonInfo.cpp checkPositions) | The loop accepts if and only if each visited pair is fine, by induction; wrapping gives the closest image for right angles; witnesses for the violations |
| C118 | Sites with positions, radius and the charge at zero wavevector; charge, neutralisation with its search for a charged site, dipole moment, list of bonds with its assertion | Sums by induction over sites and positions; ordered pairs are twice the unordered ones because touching is symmetric and no sphere touches itself |
| C119 | Assembly of the spline equations, tridiagonal elimination and back substitution, the integral of the unit splines, the correction of a first node at zero, the transform with its Simpson factors | Pivots are positive by diagonal dominance; the rows after elimination are equivalent to the equations and have one solution; the integral is linear in values and slopes; pieces are integrated by the fundamental theorem |
| C120 | Wrapping of k-points, loop over plane waves with its early stop, array of weights and the number of them written | Two plane waves have the same unit-cell k-point exactly if they differ by an integer combination of rows; the quotient of integer vectors has as many elements as the determinant (Mathlib); invariant of the loop |
| C121 | One-dimensional spline formula, wrapping of coordinates and of the four indices per direction, position in the array, nested interpolation, test of the input cell | The four weights are the spline function at four distances; all other terms of the sum vanish; wrapped indices are remainders |

## What is modelled, and what is not

The list of modelled functions is the union of the citations in `Verif/Model/*.lean`: each definition names
the file and lines it follows. In outline, by source directory:

* `jdftx/core`: MPIUtil (task division, chunked file I/O, error check), Thread (launch, loops, accumulate,
  suspension), MemCache/ManagedMemory pool, GridInfo (indices, loops, automatic sample counts),
  Operators/ScalarField (grid changes, real/complex conversion, dot/norm/sum, gradient, divergence, scaled
  fields), EnergyComponents-free minimisers (Minimize, linmin variants, LinearSolvable), Pulay, LatticeUtils
  (reduction, symmetries, supercell k-mesh reduction), WignerSeitz, PeriodicLookup, SpaceGroupOp, Spline,
  EnumStringMap, endian conversion, matrix and tiledBlockMatrix operations, Citations (Util).
* `jdftx/commands`: the parser (dependencies, order, forbids), input reading (line continuation, environment,
  include, broadcast), the enum tables.
* `jdftx/electronic`: ElecInfo (fillings, smearing, chemical potential, k-point folding, state files), Basis,
  Symmetries (fields, k-mesh, atoms maps), Dump names and frequency, ColumnBundleTransform, TetrahedralDOS,
  IonicMinimizer/IonicDynamics (Verlet, constraints), Euler angles and spinor rotations, cell maps.

Not modelled: all physics kernels (exchange-correlation functionals, pseudopotentials, fluids, exact exchange,
van der Waals), FFTs themselves, LAPACK/BLAS internals (their specification is assumed where they are called),
GPU code paths, MPI transport (collectives are taken as their MPI specification), and `aux`/`wannier`/`phonon`
drivers.

## Known simplifications

Listed in each model file at the definition concerned. The recurrent ones:

* exact numbers for doubles (no rounding, no overflow, no NaN unless stated);
* integers without overflow unless the property is about it (C06, C08, C48, C49);
* sequentially consistent memory;
* loops whose termination is not obvious carry fuel, and running out of fuel is the outcome `diverge`;
  the theorems then show that enough fuel exists (or, in violations, that no fuel is enough);
* `assert` is modelled as stopping the program (`die`) although release builds drop it, where the code relies on
  it; where dropping it matters this is said at the definition.

## Disagreements between code and property (found while modelling)

Each is proved in Lean on a concrete input when a theorem is named.

* C02 `threadLaunch`/`threadedLoop` with no jobs run the body for indices that do not exist
  (`C02_zero_jobs_violation`).
* C04 ExCorr.cpp:319 passes an explicit thread count, which defeats the suspension of nested threading.
* C06 `MPIUtil::fread/fwrite` with an item larger than INT_MAX/2 divide by zero (`C06_oversized_item`).
* C08 ElecInfo::read/write compute offsets in 32 bits (`C08_offset_overflow`).
* C12 `forbids` is only honoured within one section of the input; `getDependencies` (parser.cpp:115) omits the
  command's own list.
* C13, C54 substitution of `${VAR}` / `$VAR` never ends when a value contains its own reference.
* C14 a line feed in an environment value desynchronises the processes.
* C16 include names are compared without regard to case.
* C17 a paper cited for several reasons can be printed in several blocks.
* C18 `getString` of an enum value missing in the table dereferences `end()`.
* C20 THREAD_fullGspaceLoop on an empty range runs out of the grid (`C20_violation`).
* C21 refining a real field with a Nyquist component does not give a real field (`C21_nyquist_not_real`).
* C23 dot/nrm2/sum of half-space fields are wrong for odd last dimension ≥ 3 (`C23_violation`).
* C24, C25 `fftSuitable(0)` loops forever.
* C27 with a loose threshold the accepted matrices need not be closed under products (`C27_closure_violation`).
* C29 `getNeighbours`: `continue` acts on the inner loop only, so nothing is filtered (`C29_violation`).
* C32 equivalent k-points in the input list leave an index unset (`C32_duplicate_violation`).
* C33 translations off the FFT mesh are not checked; Nyquist coefficients shrink at every symmetrisation
  (`C33_nyquist_violation`).
* C35 a negative cutoff takes the square root of a negative number; k outside the first cell can leave the box.
* C36, C37 `linminQuad` returns a step already reduced once more after its last attempt, so the undo does not
  restore the state and the energy can rise (`C37_violation`); `linminCubicWolfe` can accept a backward step
  that raises the energy (`C37_cubic_violation`). `history = 0` is undefined.
* C38 with `nDiff = 0` any decrease counts as converged. C39 `solve` returns 0 after one iteration.
* C40 Pulay mixing re-entered after convergence uses stale overlaps (violation proved).
* C42 evaluation at the last sample reads one element too far (`C42_limits`).
* C43 the returned field belongs to the last chemical potential tried, not the returned one.
* C44 a user-given number of bands with magnetisation can lose electrons (`C44_spin_violation`).
* C45 on disconnected meshes weight is lost or the code stops (three violations); the meshes built by the code
  are connected.
* C46 subtracting the plain mean acceleration breaks momentum conservation for unequal masses
  (`C46_momentum_violation`).
* C50 column range asserts use `||` (matrixOperators.cpp:101-102), so out-of-range columns are written
  (`C50_column_violation`).
* C51 left products with tiled blocks use one offset for operand and result (`C51_tall_violation`,
  `C51_wide_violation`).
* C52 empty results with transposed operands stop in BLAS (`C52_empty_violation`).
* C56 `polarUnitVector`/`getEulerAxis` use the opposite sense of the first angle (`C56_polar_violation`).
* C57 more than 1/threshold cells along one direction are merged (`C57_threshold_violation`).
* C58 adding to a shared field with factor zero detaches it (`C58_shared_violation`).
* C59 a vector outside the box wraps to a wrong index and the check can pass (`C59_wrap_violation`).
* C60 `det` ignores the sign of the row permutation (`C60_sign_violation`).
* C61 hyperplane constraints are applied one after the other (`C61_groups_violation`); equivalence of
  constraints ignores the normals (`C61_symmetry_violation`).
* C64 `nrm2` of a scaled operand ignores the factor (`C64_norm_violation`).
* C67 the history pairs 1/(s·y) with the preconditioned difference Ky, so with a preconditioner that is not a
  projection the secant equation fails and the direction can be uphill (`C67_precond_violation`).
* C68 the strain factors of successive steps multiply, so a step followed by its negative does not restore the
  lattice (`C68_undo_violation`).
* C69 if no mesh point lies on the boundary of the Wigner-Seitz cell (odd meshes) the constructor dereferences
  `rbegin()` of an empty map (`C69_odd_violation`).
* C71 positions are not reduced to one cell before the dispersion sum: in truncated directions an atom described
  by an image one cell away is taken to be that far from its neighbours (`C71_images_violation`). The Coulomb sums
  do reduce them.
* C72 The Perdew-Zunger correlation energy, with the published rounded parameters, jumps at rs = 1
  (C72_pz_jump_violation); so does every correlation functional at the cutoff density.
* C74 In noncollinear mode with gradient-corrected functionals, spinDiagonalizeGrad adds to E_n inside the loop
  over the directions of one process (ExCorr.cpp:889), after E_n has been collected over processes
  (ExCorr.cpp:823) and without a further collection. On more than one process, each returns a potential that lacks
  the contributions of the other processes' directions (C74_noncollinear_violation).
* C76: `ShapeFunction` depends on the absolute value of the density, but its gradient (PCM_internal.h:95-101)
  leaves out the sign of the density. At negative densities (which occur through Fourier ringing) the propagated
  gradient has the wrong sign (C76_negative_violation).
* C80 `pcm-nonlinear-debug`: `linearScreening` only changes a log message (and the minimiser's default step
  count), the ionic response stays nonlinear (`C80_linear_screening_violation`); with `linearDielectric` the last
  entry of the response table is the nonlinear limit, so the interpolated response is not linear
  (`C80_linear_dielectric_violation`).
* C83 The perturbation solver keeps a best state and goes back to it when it ends without convergence
  (perturb/LinearSolver.h:158-174). The record is only updated when the error begins to rise, so the states
  reached while it falls again are not considered: at the iteration limit a state with a residual measure more
  than 300 times that of the last state is returned (C83_best_violation). The record is also ignored if it is one
  of the first two states.
* C84 MINRES divides the first residual by its norm without checking it (perturb/LinearSolver.h:189), so if the
  initial state solves the equation, for example without any perturbation, the returned state is not a number
  (C84_start_violation).
* C85 constant fillings that are not scalar: ElecMinimizer.cpp:212-215 computes the gradient of the rotations
  without the weight of the state, so for weight 2 (unpolarised Gamma point) the slope is half of the derivative
  (`C85_fixed_weights_fails`).
* C85 fixed chemical potential with a magnetic field: the fillings use the field (ElecVars.cpp:379-384), the
  entropy and the field energy are computed with zero field (ElecInfo.cpp:264-265), so the slope is not the
  derivative (`C85_field_potential_fails`).
* C85 fixed chemical potential and magnetization: ElecVars.cpp:458 divides by the difference of the responses of
  the two spins, which is zero in an unmagnetised state; the sum is meant (`C85_moment_potential_fails`).
* C85 constant scalar fillings: the direction is not rotated along with the wavefunctions, so a step forward and
  back does not return (`C85_scalar_line_fails`); the state that a line search evaluates is not the one on the
  line that its formulas assume.
* C85 the gradient at the end of a line search uses rotPrevCinv, which is not unitary, and `report` then replaces
  the rotations: the slope of the next line search is off by a factor of second order in the last step
  (`C85_stale_gradient_fails`).
* C86 `fixUnitary` is called for two rotations with the address of the same flag (WannierMinimizer.cpp:171-174,
  WannierMinimizer_init.cpp:525-528), but `pow` clears the flag on entry: a singular first rotation goes
  unreported and the minimiser continues with rotations that are not unitary (`C86_lost_flag_fails`).
* C86 `cis_grad` is documented to take the gradient with respect to cis(A), but its result is correct only for
  that gradient multiplied by the adjoint of cis(A) (`C86_cis_grad`, `C86_cis_grad_literal_fails`); its only
  caller, DumpQMC.cpp:84, passes the latter.
* C87 the screened PBE exchange of HSE06 divides by the derivative argument of erfc, which is zero at zero
  gradient (ExCorr_internal_GGA.h:407): the reported potential is then not a number (`C87_screened_violation`), so
  a uniform density cannot be treated; the limited reduced gradient jumps at s = 1
  (`C87_screened_limit_violation`).
* C87 LB94 provides a potential only, its energy is zero everywhere, but unlike GLLB-sc it is not marked as such,
  so total-energy minimisation is not refused (`C87_lb94_violation`).
* C87 the last coefficient of the exchange hole in the screened functional of HSE06 (`g`,
  ExCorr_internal_GGA.h:408) has half the published first term and the opposite sign of the published last term
  (HSE03, equations A1 to A3). The hole of the uniform gas then contains 5% too many electrons and the exchange
  energy at high density is 5% too large (`C87_screened_hole_violation`, `C87_screened_uniform_violation`);
  evaluated numerically (not proved), the enhancement factor without screening is 0.72 at s = 1 and 0.05 at s = 2,
  where PBE has 1.17 and 1.42.
* C87 the argument of erfc in the same functional is omega/kF times 2^(-1/3) (`erfcArgPrefac`,
  ExCorr_internal_GGA.h:417, uses 2/(9 pi) where 4/(9 pi) gives omega/kF), so the semilocal part is screened with
  0.087 and the exact exchange with 0.11 (`C87_screened_range_violation`).
* C89 (different masses): when nothing is constrained, `IonicMinimizer::constrain` subtracts the mean acceleration
  and the mean velocity without weighting by mass (IonicMinimizer.cpp:385-397), so that kinetic plus potential
  energy is not conserved for atoms of different mass, with or without thermostat; `C89_energy_drift` gives the
  rate, `C89_energy_violation` an instance.
* C89 (degrees of freedom): collective constraints are not counted (`C89_degrees_violation`), the overall
  translation is discounted although external potentials keep it (`C89_external_violation`), and with all atoms
  fixed the count is 1 instead of 0, so that the check for no degrees of freedom does not apply and initial
  velocities are not numbers (`C89_fixed_violation`).
* C89 (empty chains): `chainLengthT` and `chainLengthP` may be 0, and the thermostat then reads the first element
  of an empty array (`C89_chain_violation`).
* C90 (unused species): `findSpaceGroup` leaves the loop over species when the list of offsets is empty (line
  497), also when this is so because the first species has no atoms; the crystal is then treated as one without
  atoms and every lattice rotation is reported without offset. If the positions happen to be symmetric but the
  magnetic moments are not, nothing notices (`C90_unused_violation`).
* C90 (displaced atom): whether an operation keeps the atom in place is tested without reducing by lattice vectors
  (line 421), so that the operations kept depend on the choice of cell and need not be a group
  (`C90_perturbation_violation`).
* C90 (periodic field): for a field along periodic directions, translations are tested by their scalar product
  with the field (line 402), but the potential applied is a sum of sines of the coordinates; translations that
  change the potential are kept, and the result need not be a group (`C90_field_violation`).
* C91 (default radius): without a given radius the sphere has the in-radius of the Wigner-Seitz cell, which
  changes with strain, but `CoulombSpherical_calc::latticeGradient` (Coulomb_internal.h:91-96) differentiates at
  fixed radius (`C91_sphere_violation`).
* C92 (offset): for k-points that differ by a reciprocal lattice vector, the energy uses `Vzero` at one entry of
  the grid, but `latticeGradient` adds `Vzero_RRT` only for a zero difference (Coulomb_ExchangeEval.cpp:635;
  `C92_offset_violation`).
* C92 (fixed radius): with no regularization the radius is fixed, but the matrix contains the change of a radius
  that follows the volume (lines 381, 412; `C92_fixed_violation`).
* C92 (screened slab): `ExchangeSlab_calc::latticeGradient` and `Vzero_RRT` (line 477) leave out the screening
  (`C92_slab_screened_violation`).
* C92 (odd grid): the cosine transform across the slab covers `S/2` intervals of width `2h/S`, which is the whole
  slab only if `S` is even (`C92_axis_partial`); an odd box can be given by hand.
* C92 (edge of the grid): with an offset, `multTransformedKernel_calc` reads the entry of another wave vector at
  the edge of the grid, and one outside the array for two points in a direction (`C92_trans_violation`).
* C93 `Fex_H2O_FittedCorrelations::computeUniform` omits the quadratic part of the functional, although Fex.h
  requires the result for a uniform field; the difference is of order 1e-10 of the energy density
  (`C93_fitted_uniform_fails`). It also overwrites the derivative array instead of adding to it
  (`C93_fitted_accumulate_fails`); harmless as long as no hard spheres are present in that fluid.
* C93 `WB_f2` and `WB_f3` switch from a truncated series to the closed form at packing fractions 0.002 and 0.005,
  where they jump by less than the fifth power of the packing fraction (`C93_white_bear`); the gradient theorems
  exclude these two values.
* C94: the comment in TranslationOperator.h says T_t x(r) = x(r+t); the code computes x(r-t)
  (`C94_direction_fails`). Only the comment is wrong: callers pass vectors for the direction of the code.
* C95: the potential that makes the cell neutral is sought by at most ten steps of Newton's method
  (FluidMixtureCompute.cpp:108-116), and nothing tests the result: for a salt whose densities start far from
  balance the cell keeps a large charge without any error (`C95_newton_fails`). The code before the loop is meant
  to stop if neutrality is impossible, but does not if the only free ions have charges of one sign and the
  remaining charge is exactly zero (`C95_one_sign_fails`).
* C95: IdealGasPomega.cpp:128-153 scales the dipole correlation energy by `Nscale`, but its gradient by
  `Nscale*Nscale`. For dipolar molecules with a prescribed number, the gradient is not that of the energy
  (`C95_dipole_fails`: 3 instead of 1).
* C96 `fluid` accepts a negative pressure (commands/fluid.cpp:66), and `FluidMixture::initialize` lowers the
  density by 1% until the pressure is not above the target (FluidMixture.cpp:52-59); without attraction this loop
  never ends (`C96_negative_fails`).
* C97 (exact exchange): a process can be given a chunk without bands. If that process has the state of the chunk,
  `diagMatrix::operator()` fails its assertion (ExactExchange.cpp:472, matrix.cpp:33-40), so the run stops: for
  example two spins at one k-point, three bands and five processes (`C97_chunk_fails`). Also, the best transforms
  start as the first ones while their score starts as that of the random choice (lines 327, 342), so if no step
  improves on the random choice the number of pairs that is printed is not the one that is used; the energy is
  correct for any choice.
* C98 `forceMatrixGammaPrimeFix` sets the diagonal element of a Cartesian 3x3 matrix for each truncated *lattice*
  direction. If the truncated lattice vector lies along another Cartesian axis, the matrix stays singular and the
  inverse (division by a zero determinant) makes all force constants NaN (`C98_axes_fails`). The same happens
  without truncation when the cell map holds only the unit cell itself, e.g. one atom in a 1x1x1 supercell
  (`C98_single_fails`).
* C98 With all directions truncated, `getQuadratureBZ` returns no points, so the zero-point energy and the free
  energies of a molecule are reported as zero (`C98_isolated_fails`); isolated geometries are not rejected.
* C99 Phonon_init.cpp:181 converts manual symmetries to the supercell as `Diag(sup)*rot*inv(Diag(sup))`; lattice
  coordinates of the supercell need `inv(Diag(sup))*rot*Diag(sup)`. For anisotropic supercells of lattices with
  off-diagonal operations, operations that are no symmetries of the supercell are accepted with a matrix that is
  not an isometry (the assertion on `projTot` then stops the program), and valid ones get a matrix that does not
  map atoms to atoms (`C99_manual_fails`).
* C101: the finite-difference formula of Wannier calculations uses one mask for lattice directions and for
  Cartesian components. For a lattice turned by 45 degrees about z (vectors along the diagonals of the xy plane) a
  formula is found but counts gradients along x and y twice (`C101_turned_fails`); for a cubic lattice whose first
  vector is along y the program ends without a formula (`C101_swapped_fails`). Directions done as part of an
  earlier block are included again in later blocks when non-orthogonality is not transitive, and count twice
  (`C101_chain_fails`). The threshold for orthogonality (1e-4) is compared with products of mesh spacings, so that
  a mesh with spacing of at most 0.01/bohr along a direction orthogonal to the others ends the program
  (`C101_fine_fails`).
* C102 `VnlPrime_calc` sets 1/q to zero at q=0, so that the derivative of projectors of angular momentum 1 with
  the wave vector is returned as zero for the plane wave with k+G=0, where it is not zero
  (`C102_velocity_zero_fails`). `getV` tests `!stressDir` although the default is -1: ordinary projectors are
  never cached, the xx-stress projectors are; results are still right under the condition of `C102_cache`.
* C103 `Symmetries::symmetrizeSpherical` returns without averaging over equivalent atoms when l = 0, so with
  reduced k-points equivalent atoms get different s occupations (`C103_s_fails`); and `rhoAtom_grad` omits the
  symmetrization, which is only right when external potentials have the symmetry: otherwise the gradient is not
  that of the energy (`C103_vext_fails`).
* C104 `IonInfo::update` and `IonInfo::ionicEnergyAndGrad` both evaluate the metadynamics bond, and each
  evaluation adds a Gaussian: a step adds it twice, and its energy and forces belong to different potentials
  (`C104_double_fails`). The bond adds nothing to the lattice gradient (`C104_bond_stress_fails`), its length is
  not always that of the closest image (`C104_image_fails`), coinciding atoms give forces that are not numbers
  (`C104_coincide_fails`), and a zero or negative resolution is accepted (`C104_resolution_fails`).
* C105 Vibrations: a planar constraint whose normal is the third axis gives directions that are not numbers
  (`C105_planar_fails`: the start vector is then parallel to the normal). The table of inverse symmetries compares
  rotations only, so with several offsets per rotation (a cell that is not primitive) forces are taken from the
  wrong atoms (`C105_supercell_fails`). If all modes are imaginary they are all counted as zero modes
  (`C105_imaginary_fails`); an eigenvalue exactly at the cutoff can lose the real modes (`C105_cutoff_fails`). The
  phase of a printed mode is removed from the first three components only (`C105_phase_fails`), gives not-a-number
  if those are zero (`C105_still_fails`), and reads beyond the data with fewer than three modes
  (`C105_few_modes_fails`). Not modelled: the constructor leaves `dumpK` uninitialised, so a Hessian may be
  written when the command is not given.
* C90 Symmetries: collective (hyperplane) constraints are never compared (`C90_hyperplane_violation`), so a
  symmetry can relate atoms whose hyperplanes it does not map onto each other.
* C106 The matrix of C6 coefficients of two elements is filled row by row (`getPairParams`) but matrices are
  stored column by column, so the coefficient of references (i, j) is read from the wrong place when the elements
  differ and both have several references. For hydrogen and lithium far apart the energy is less than a third of
  the published one (`C106_coefficients_fails`).
* C106 The number of neighbouring cells is derived from the lengths of the lattice vectors instead of the distance
  between lattice planes, so the coordination numbers depend on the choice of the basis (`C106_skewed_fails`).
* C107 potentials in non-collinear calculations are mixed with the conversion to charge and magnetization of
  densities, but their off-diagonal components are in another convention (the matrix has half of them). The weight
  of a rotated potential in the inner product is four times that of the original (`C107_potential_axes_fails`), so
  the mixing depends on the spin axes.
* C107 the shortest reciprocal lattice vector is searched among the 26 nearest combinations of the basis vectors;
  in skewed bases there are shorter ones (`C107_shortest_fails`).
* C108 BandDavidson.cpp: the expanded set is orthonormalized with a Cholesky factorization, which ends the program
  when two residuals are parallel, for example for two bands that couple to the same plane wave
  (`C108_dependent_fails`; for a single residual this cannot happen, `C108_single`). The preconditioner divides by
  the kinetic energy of a band, which is zero for a constant wavefunction (`C108_constant_fails`). A start that is
  an exact solution but not the lowest one is kept and reported as converged (`C108_lowest_fails`).
* C109 With smearing, `getExtremalEnergy` divides by a sum of weights that is zero when every band of a spin is
  filled or empty (an insulator, to machine precision): the edges and then the potential are not numbers
  (`C109_smearing_fails`). In a spin without electrons `getPotential` divides zero by zero everywhere
  (`C109_spin_fails`). `smoothedSqrt` is larger than the square root just below five widths, so it drops there
  (`C109_root_fails`).
* C110 `dumpFCI` requires q2 <= q1 and q4 <= q3. With three or more k-points an integral of pairs with k2-k1 =
  k4-k3 (up to reciprocal lattice vectors) but q2 < q1 and q3 < q4 is missing together with its equivalents by
  exchange and conjugation (`C110_complete_fails`).
* C111 `findHOMO` returns band 0 for a state without occupied bands, so `dumpExcitations` reports an empty band of
  the other spin of a hydrogen atom as the highest occupied one and a gap that is too large (`C111_empty_fails`).
* C111 `dumpExcitations` integrates psi_u r psi_o without complex conjugation and for the first spinor component
  only: transition strengths of complex wavefunctions and of spinors are wrong (`C111_complex_fails`,
  `C111_spinor_fails`).
* C113 A word that starts with a whole number and goes on otherwise is taken as two parameters by a command that
  reads an integer and then something else: the theorem has a string as the second. By
  reading the code, `fluid-gummel-loop 10.5` (commands/fluid.cpp:92-95) is accepted as 10 iterations with tolerance
  0.5; the read of a floating-point number is not modelled. `rewind` after a call that found no parameter has no effect, and `getRemainder` after
  a caught conversion error returns nothing (no command of this version meets the last case). Proved:
  `C113_split_fails`, `C113_rewind_fails`, `C113_caught_fails`.
* C117 Overlapping atoms: differences of positions are wrapped per lattice component, which does not give the
  closest image in cells without right angles. In a face-centred cubic cell with lattice constant 10, atoms with
  core radius 2.5 that are 4.24 apart are accepted (`C117_skewed_fails`). Images of the same atom are never
  checked (`C117_self_fails`), and atoms of pseudopotentials without core radius are accepted even on top of each
  other (`C117_local_fails`).
* C119: `RadialFunctionR::initWeights` computes weights that are exact by themselves, but
  `RadialFunctionR::transform` multiplies them by the factors 1, 4, 2, … of Simpson's rule, which are meant for a
  logarithmic grid with weights `r dlogr`, and ignores the last sample if their number is even. On the nodes 1, 2,
  3 the transform of the constant one at zero wavevector is not the volume of the ball (`C119_transform_fails`).
  Fluid sites use this combination (Molecule.cpp:72-101, 135).
* C120: `Dump::dumpUnfold` writes `nUnits*nBands` weights per state without checking that the list of unit-cell
  k-points is full. If the basis of the supercell does not reach all of them, `ElecInfo::write` reads beyond the
  array (`C120_small_basis_fails`).
* C121: for a mesh with a single point in a direction, the wrapped index in `resample_sub` (Blip.cpp:110-113) can
  be 1, because the number of points is subtracted once only, and the array is read outside its range
  (`C121_single_fails`). Grids with a cutoff have at least four points (GridInfo.cpp:208), so this needs one without.
