{
 "claims": [
  {
   "property": "C01",
   "status": "proved",
   "theorems": [
    "Jdftx.TaskDiv.C01_partition",
    "Jdftx.TaskDiv.C01_owner",
    "Jdftx.TaskDiv.C01_single"
   ],
   "note": "All N, P>=1. size_t overflow not modelled."
  },
  {
   "property": "C02",
   "status": "partial",
   "theorems": [
    "Jdftx.Thr.C02_exact_cover_partial",
    "Jdftx.Thr.C02_zero_jobs_violation"
   ],
   "note": "Proved for nJobs>0; for nJobs=0 the code violates the property (proved negation)."
  },
  {
   "property": "C03",
   "status": "proved",
   "theorems": [
    "Jdftx.Thr.C03_accumulate",
    "Jdftx.Thr.C03_mutual_exclusion",
    "Jdftx.Thr.C03_completes"
   ],
   "note": "All schedules of single reads/writes and lock operations, exact addition, at least one job (zero jobs: see C02)."
  },
  {
   "property": "C04",
   "status": "partial",
   "theorems": [
    "Jdftx.Thr.C04_suspension_partial",
    "Jdftx.Thr.C04_counts",
    "Jdftx.Thr.C04_violation",
    "Jdftx.Thr.C04_violation_nested"
   ],
   "note": "Full property is false (negations proved); holds without explicit thread counts and nested suspension inside guarded regions."
  },
  {
   "property": "C05",
   "status": "proved",
   "theorems": [
    "Jdftx.Thr.C05_scatter_injective",
    "Jdftx.Thr.C05_gather",
    "Jdftx.Thr.C05_scatter_one_thread",
    "Jdftx.Thr.C05_lost_update"
   ],
   "note": "All interleavings; the lost-update witness shows the distinctness condition is needed."
  },
  {
   "property": "C06",
   "status": "proved",
   "theorems": [
    "Jdftx.FileIO.C06_write",
    "Jdftx.FileIO.C06_read",
    "Jdftx.FileIO.C06_roundtrip",
    "Jdftx.FileIO.C06_oversized_item"
   ],
   "note": "Item sizes up to INT_MAX/2, as in the property; larger items trap (proved)."
  },
  {
   "property": "C07",
   "status": "proved",
   "theorems": [
    "Jdftx.Coll.C07_agreement"
   ],
   "note": "Broadcast and reduction semantics trusted; int overflow of the total length not modelled."
  },
  {
   "property": "C08",
   "status": "partial",
   "theorems": [
    "Jdftx.Coll.C08_write_partial",
    "Jdftx.Coll.C08_read_partial",
    "Jdftx.Coll.C08_roundtrip_partial",
    "Jdftx.Coll.C08_offset_overflow"
   ],
   "note": "Proved when the total element count fits an int; beyond that the offset computation overflows (proved witness)."
  },
  {
   "property": "C09",
   "status": "proved",
   "theorems": [
    "Jdftx.MemCache.C09_alloc",
    "Jdftx.MemCache.C09_free",
    "Jdftx.MemCache.C09_accounting",
    "Jdftx.MemCache.C09_target",
    "Jdftx.MemCache.C09_no_ub"
   ],
   "note": "All histories, any system allocator that never hands out overlapping live blocks; statistics counters and the uncached memory spaces not modelled."
  },
  {
   "property": "C10",
   "status": "proved",
   "theorems": [
    "Jdftx.Cmd.C10_levels",
    "Jdftx.Cmd.C10_order",
    "Jdftx.Cmd.C10_accepted",
    "Jdftx.Cmd.C10_defaults",
    "Jdftx.Cmd.C10_parameters"
   ],
   "note": "All command maps with distinct names, all inputs, arbitrary command behaviour. The forbid/require consistency check (parser.cpp:93-109), which can only abort, is not modelled."
  },
  {
   "property": "C100",
   "status": "proved",
   "theorems": [
    "Jdftx.Wan.C100_gradient",
    "Jdftx.Wan.C100_invariant_gradient",
    "Jdftx.Wan.C100_steps",
    "Jdftx.Wan.C100_decomposition",
    "Jdftx.Wan.C100_bounds",
    "Jdftx.Wan.C100_mixing",
    "Jdftx.Wan.C100_points",
    "Jdftx.Wan.C100_origin"
   ],
   "note": "Exact arithmetic; the finite-difference formula is a hypothesis here (C101); overlaps between bands are inputs."
  },
  {
   "property": "C101",
   "status": "partial",
   "theorems": [
    "Jdftx.WanFD.C101_formula_partial",
    "Jdftx.WanFD.C101_found",
    "Jdftx.WanFD.C101_turned_fails",
    "Jdftx.WanFD.C101_swapped_fails",
    "Jdftx.WanFD.C101_chain_fails",
    "Jdftx.WanFD.C101_fine_fails",
    "Jdftx.WanFD.C101_nearest"
   ],
   "note": "Proved: the formula is exact up to the threshold, for every solver of the least-squares problem, when blocks of non-orthogonal lattice directions span the Cartesian directions of the same numbers; it is found for orthorhombic lattices along the Cartesian directions. Negations proved for lattices turned or permuted with respect to the Cartesian directions, for chains of non-orthogonal directions, and for fine meshes. Edges on the mesh are not modelled."
  },
  {
   "property": "C102",
   "status": "partial",
   "theorems": [
    "Jdftx.Psp.C102_local_forces",
    "Jdftx.Psp.C102_local_stress",
    "Jdftx.Psp.C102_nonlocal_forces",
    "Jdftx.Psp.C102_nonlocal_stress",
    "Jdftx.Psp.C102_velocity_partial",
    "Jdftx.Psp.C102_velocity_zero_fails",
    "Jdftx.Psp.C102_cache",
    "Jdftx.Psp.C102_cache_stale_fails"
   ],
   "note": "Local and nonlocal forces and stresses are the derivatives of the energies, for all inputs; the derivative of projectors with the wave vector is right except at zero wave vector, where it is proved wrong for angular momentum 1; the cache of projectors is transparent if updates follow lattice changes."
  },
  {
   "property": "C103",
   "status": "partial",
   "theorems": [
    "Jdftx.DftU.C103_wavefunctions",
    "Jdftx.DftU.C103_forces",
    "Jdftx.DftU.C103_stress",
    "Jdftx.DftU.C103_symmetric",
    "Jdftx.DftU.C103_rotation",
    "Jdftx.DftU.C103_penalty",
    "Jdftx.DftU.C103_s_fails",
    "Jdftx.DftU.C103_vext_fails"
   ],
   "note": "Gradients with respect to wavefunctions, forces and stress of the DFT+U energy, symmetrization of density matrices, invariance and sign of the energy. Partial because s orbitals are not symmetrized (C103_s_fails) and because an external potential that breaks the symmetry gives a wrong gradient (C103_vext_fails); the stress is proved without symmetrization and for complete shells."
  },
  {
   "property": "C104",
   "status": "partial",
   "theorems": [
    "Jdftx.IonExt.C104_gauss_forces",
    "Jdftx.IonExt.C104_gauss_energy",
    "Jdftx.IonExt.C104_gauss_stress",
    "Jdftx.IonExt.C104_gauss_periodic",
    "Jdftx.IonExt.C104_select",
    "Jdftx.IonExt.C104_bond",
    "Jdftx.IonExt.C104_history",
    "Jdftx.IonExt.C104_image_partial",
    "Jdftx.IonExt.C104_double_fails",
    "Jdftx.IonExt.C104_coincide_fails",
    "Jdftx.IonExt.C104_resolution_fails",
    "Jdftx.IonExt.C104_bond_stress_fails",
    "Jdftx.IonExt.C104_image_fails"
   ],
   "note": "Gaussian potentials: forces, stress, periodicity. Metadynamics on a bond: atoms selected, energy and forces of the updated potential, the potential as a sum over the history. Partial because the update is done twice per step, coinciding atoms give forces that are not numbers, the resolution is not checked, the bond adds no stress and the image is not always the closest; each proved."
  },
  {
   "property": "C105",
   "status": "partial",
   "theorems": [
    "Jdftx.Vib.C105_positions",
    "Jdftx.Vib.C105_directions",
    "Jdftx.Vib.C105_directions_partial",
    "Jdftx.Vib.C105_force_matrix",
    "Jdftx.Vib.C105_dipole",
    "Jdftx.Vib.C105_projection",
    "Jdftx.Vib.C105_normal_modes",
    "Jdftx.Vib.C105_classify_partial",
    "Jdftx.Vib.C105_thermodynamics",
    "Jdftx.Vib.C105_degeneracy",
    "Jdftx.Vib.C105_phase",
    "Jdftx.Vib.C105_printed",
    "Jdftx.Vib.C105_unwrap",
    "Jdftx.Vib.C105_planar_fails",
    "Jdftx.Vib.C105_supercell_fails",
    "Jdftx.Vib.C105_imaginary_fails",
    "Jdftx.Vib.C105_cutoff_fails",
    "Jdftx.Vib.C105_phase_fails",
    "Jdftx.Vib.C105_still_fails",
    "Jdftx.Vib.C105_few_modes_fails"
   ],
   "note": "Positions restored, directions, force matrix and dipole derivatives of a harmonic crystal from the displacements in the irreducible wedge, projection, normal modes, classification, degeneracies, thermodynamics, phases and wrapping of molecules. Partial because planar constraints along the third axis give directions that are not numbers, symmetries with translations inside the cell give a wrong force matrix, modes that are all imaginary are counted as zero modes, eigenvalues at the cutoff lose real modes, and the phase of printed modes is removed from three components only; each proved."
  },
  {
   "property": "C106",
   "status": "partial",
   "theorems": [
    "Jdftx.D3.C106_elements",
    "Jdftx.D3.C106_pair_index",
    "Jdftx.D3.C106_coordination",
    "Jdftx.D3.C106_weights",
    "Jdftx.D3.C106_underflow",
    "Jdftx.D3.C106_matrix",
    "Jdftx.D3.C106_energy_partial",
    "Jdftx.D3.C106_processes",
    "Jdftx.D3.C106_attractive",
    "Jdftx.D3.C106_forces",
    "Jdftx.D3.C106_stress",
    "Jdftx.D3.C106_momentum",
    "Jdftx.D3.C106_coefficients_fails",
    "Jdftx.D3.C106_skewed_fails"
   ],
   "note": "The energy is the published one for one element, or when one of each two elements has a single reference. For other pairs of elements it is wrong: the coefficients are written row by row into a matrix stored column by column, proved with hydrogen and lithium and the coefficients of the table. Neighbours within the cutoff are missed in skewed bases, proved for the coordination number. Forces and stress are the derivatives of the energy that is returned, for all inputs, away from the cutoffs."
  },
  {
   "property": "C107",
   "status": "partial",
   "theorems": [
    "Jdftx.SCF.C107_kernels",
    "Jdftx.SCF.C107_average",
    "Jdftx.SCF.C107_screening",
    "Jdftx.SCF.C107_shortest",
    "Jdftx.SCF.C107_inner_product",
    "Jdftx.SCF.C107_solvable",
    "Jdftx.SCF.C107_smallest",
    "Jdftx.SCF.C107_every_update",
    "Jdftx.SCF.C107_electrons",
    "Jdftx.SCF.C107_stationary",
    "Jdftx.SCF.C107_axes",
    "Jdftx.SCF.C107_state",
    "Jdftx.SCF.C107_history",
    "Jdftx.SCF.C107_file_size",
    "Jdftx.SCF.C107_eigenvalues",
    "Jdftx.SCF.C107_potential_axes_fails",
    "Jdftx.SCF.C107_shortest_fails"
   ],
   "note": "Kernels, inner product, choice of the coefficients, electron number, fixed points, spin axes for densities, saved history and change of the eigenvalues. Partial because mixing of potentials depends on the spin axes (the weight of a potential changes by a factor of four when it is rotated), and the shortest reciprocal lattice vector is not found for skewed lattices; both proved. Independence of the spin axes is proved without the density matrices of DFT+U."
  },
  {
   "property": "C108",
   "status": "partial",
   "theorems": [
    "Jdftx.Davidson.C108_preconditioner",
    "Jdftx.Davidson.C108_expansion",
    "Jdftx.Davidson.C108_iteration",
    "Jdftx.Davidson.C108_progress",
    "Jdftx.Davidson.C108_energy",
    "Jdftx.Davidson.C108_result",
    "Jdftx.Davidson.C108_bound",
    "Jdftx.Davidson.C108_convergence",
    "Jdftx.Davidson.C108_targets",
    "Jdftx.Davidson.C108_size",
    "Jdftx.Davidson.C108_solutions",
    "Jdftx.Davidson.C108_single",
    "Jdftx.Davidson.C108_dependent",
    "Jdftx.Davidson.C108_dependent_fails",
    "Jdftx.Davidson.C108_constant_fails",
    "Jdftx.Davidson.C108_lowest_fails"
   ],
   "note": "Exact arithmetic, one state; LAPACK is any pair of functions that meets its specification. The Hamiltonian, the overlap and the projectors are arbitrary matrices. Three parts of the property are false and their negations are proved: parallel residuals end the program, a constant wavefunction gives undefined numbers, and a band that is not among the lowest can be reported as converged. Not modelled: rounding, and the message process that prints the energies."
  },
  {
   "property": "C109",
   "status": "partial",
   "theorems": [
    "Jdftx.GLLB.C109_edges",
    "Jdftx.GLLB.C109_processes",
    "Jdftx.GLLB.C109_smeared",
    "Jdftx.GLLB.C109_root",
    "Jdftx.GLLB.C109_potential",
    "Jdftx.GLLB.C109_discontinuity",
    "Jdftx.GLLB.C109_shift",
    "Jdftx.GLLB.C109_quasiparticles",
    "Jdftx.GLLB.C109_occupied",
    "Jdftx.GLLB.C109_gap",
    "Jdftx.GLLB.C109_root_fails",
    "Jdftx.GLLB.C109_smearing_fails",
    "Jdftx.GLLB.C109_spin_fails"
   ],
   "note": "Partial because the code violates part of the property: with smearing the band edges are undefined when all bands are filled or empty, the potential is undefined in a spin without electrons, and the smoothed root drops five widths above the edge (the negations are proved). Exact real arithmetic; symmetrization, spinors, files and the fixed-Hamiltonian case of the dump are not modelled."
  },
  {
   "property": "C11",
   "status": "proved",
   "theorems": [
    "Jdftx.Cmd.C11_reorder",
    "Jdftx.Cmd.C11_swap"
   ],
   "note": "Printing of the status after parsing not modelled."
  },
  {
   "property": "C110",
   "status": "partial",
   "theorems": [
    "Jdftx.FCI.C110_elements",
    "Jdftx.FCI.C110_lines",
    "Jdftx.FCI.C110_processes",
    "Jdftx.FCI.C110_threshold",
    "Jdftx.FCI.C110_numbers",
    "Jdftx.FCI.C110_pairs",
    "Jdftx.FCI.C110_range",
    "Jdftx.FCI.C110_one",
    "Jdftx.FCI.C110_complete_partial",
    "Jdftx.FCI.C110_complete_fails"
   ],
   "note": "Partial because the code violates completeness: with several k-points integrals that conserve wave vectors are missing when the two pairs have opposite order (negation proved); proved complete for real wavefunctions at one k-point. The header, the format of numbers, the eigenvalue lines, messages between processes, the Fourier transform and the Coulomb operator are not modelled (given functions)."
  },
  {
   "property": "C111",
   "status": "partial",
   "theorems": [
    "Jdftx.Excite.C111_processes",
    "Jdftx.Excite.C111_written",
    "Jdftx.Excite.C111_lines",
    "Jdftx.Excite.C111_direct",
    "Jdftx.Excite.C111_edges",
    "Jdftx.Excite.C111_strength",
    "Jdftx.Excite.C111_dipole_partial",
    "Jdftx.Excite.C111_empty_fails",
    "Jdftx.Excite.C111_complex_fails",
    "Jdftx.Excite.C111_spinor_fails"
   ],
   "note": "Partial because the code violates parts: a state without occupied bands has its lowest band taken as occupied, and dipoles of complex wavefunctions and of spinors are wrong (negations proved). Reading of quasiparticle energies, the position operator on the grid and the format of numbers are not modelled."
  },
  {
   "property": "C112",
   "status": "proved",
   "theorems": [
    "Jdftx.Aug.C112_order",
    "Jdftx.Aug.C112_find",
    "Jdftx.Aug.C112_range",
    "Jdftx.Aug.C112_density",
    "Jdftx.Aug.C112_hermitian",
    "Jdftx.Aug.C112_energy",
    "Jdftx.Aug.C112_derivative",
    "Jdftx.Aug.C112_gradient"
   ],
   "note": "The part with spherical functions, for all atoms of a species. The sums of radial functions on the grid, calls for a single atom, and derivatives with different left and right projections are not covered. Hermitian flj is a hypothesis."
  },
  {
   "property": "C113",
   "status": "partial",
   "theorems": [
    "Jdftx.Param.C113_command",
    "Jdftx.Param.C113_words",
    "Jdftx.Param.C113_numbers_partial",
    "Jdftx.Param.C113_range",
    "Jdftx.Param.C113_value",
    "Jdftx.Param.C113_remainder",
    "Jdftx.Param.C113_rewind",
    "Jdftx.Param.C113_space_needed",
    "Jdftx.Param.C113_split_fails",
    "Jdftx.Param.C113_caught_fails",
    "Jdftx.Param.C113_rewind_fails"
   ],
   "note": "Partial because the code violates parts: a word that starts with a whole number and goes on otherwise is taken as two parameters, a caught conversion error hides unread words, and going back after the end has no effect (negations proved). Numbers are modelled for int; floating-point numbers are not modelled. The stream is that of the C++ library, modelled from its specification."
  },
  {
   "property": "C114",
   "status": "proved",
   "theorems": [
    "Jdftx.Ener.C114_value",
    "Jdftx.Ener.C114_total",
    "Jdftx.Ener.C114_printed_sum",
    "Jdftx.Ener.C114_printed_value",
    "Jdftx.Ener.C114_printed_all",
    "Jdftx.Ener.C114_name",
    "Jdftx.Ener.C114_printed_once",
    "Jdftx.Ener.C114_printout",
    "Jdftx.Ener.C114_last",
    "Jdftx.Ener.C114_name_absent"
   ],
   "note": "Exact numbers of a commutative group; width and digits of the printout are not modelled. That entropy, chemical potential and band energy vanish in the modes that do not use them is a hypothesis of C114_last (cited from the code, not modelled)."
  },
  {
   "property": "C115",
   "status": "proved",
   "theorems": [
    "Jdftx.Cols.C115_read",
    "Jdftx.Cols.C115_get",
    "Jdftx.Cols.C115_set_get",
    "Jdftx.Cols.C115_sub",
    "Jdftx.Cols.C115_range"
   ],
   "note": "Wavefunctions in plane waves with exact coefficients; that the plane waves of a basis are at different positions of the box is a hypothesis. The place of each process in the file, messages, and files in real space are not modelled."
  },
  {
   "property": "C116",
   "status": "proved",
   "theorems": [
    "Jdftx.Moment.C116_lines",
    "Jdftx.Moment.C116_translate",
    "Jdftx.Moment.C116_neutral",
    "Jdftx.Moment.C116_interior",
    "Jdftx.Moment.C116_periodic",
    "Jdftx.Moment.C116_reduce_exists"
   ],
   "note": "Exact reals. The reduction to the cell is the one modelled for C28, with any faces its constructor can have made. Invariance is for electrons that are not on the boundary of the cell, as shown for interior points; digits of the file are not modelled."
  },
  {
   "property": "C117",
   "status": "partial",
   "theorems": [
    "Jdftx.Core.C117_pairs",
    "Jdftx.Core.C117_orthogonal_partial",
    "Jdftx.Core.C117_found",
    "Jdftx.Core.C117_ends",
    "Jdftx.Core.C117_skewed_fails",
    "Jdftx.Core.C117_self_fails",
    "Jdftx.Core.C117_local_fails"
   ],
   "note": "Partial because the code violates parts: in cells without right angles, such as face-centred cubic, close images can be missed; images of the same atom and atoms without core radius are not checked. Proved: what is accepted in all cells, that it is right for different atoms with nonzero radii in cells with right angles, and that rejected positions do overlap in all cells."
  },
  {
   "property": "C118",
   "status": "proved",
   "theorems": [
    "Jdftx.Mole.C118_charge",
    "Jdftx.Mole.C118_check",
    "Jdftx.Mole.C118_one_site",
    "Jdftx.Mole.C118_dipole",
    "Jdftx.Mole.C118_moved_moment",
    "Jdftx.Mole.C118_moved",
    "Jdftx.Mole.C118_bonds"
   ],
   "note": "Charge, dipole moment and bonds of a fluid molecule in exact arithmetic. Kernels are modelled by their value at zero wavevector; the spline through their samples is not modelled."
  },
  {
   "property": "C119",
   "status": "partial",
   "theorems": [
    "Jdftx.RadW.C119_nodes",
    "Jdftx.RadW.C119_pivots",
    "Jdftx.RadW.C119_exact_partial",
    "Jdftx.RadW.C119_linear",
    "Jdftx.RadW.C119_last_ignored",
    "Jdftx.RadW.C119_transform_fails"
   ],
   "note": "The weights are exact for every natural cubic spline on every valid grid. The full property also asks this of the Bessel transform at zero wavevector, which is false because it multiplies the weights by Simpson factors and drops the last of an even number of samples; this is proved."
  },
  {
   "property": "C12",
   "status": "partial",
   "theorems": [
    "Jdftx.Cmd.C12_same_section_partial",
    "Jdftx.Cmd.C12_violation"
   ],
   "note": "Proved within a section; across sections the full property is false for the code (phonon with fix-electron-density)."
  },
  {
   "property": "C120",
   "status": "partial",
   "theorems": [
    "Jdftx.Unfold.C120_listed",
    "Jdftx.Unfold.C120_covered",
    "Jdftx.Unfold.C120_written_partial",
    "Jdftx.Unfold.C120_small_basis_fails"
   ],
   "note": "The list of unit-cell k-points is right for every supercell matrix and basis. That the file has all weights needs a basis that reaches every unit-cell k-point; otherwise the writer reads beyond the array, which is proved. The look-up is exact and the sort is not modelled."
  },
  {
   "property": "C121",
   "status": "proved",
   "theorems": [
    "Jdftx.Blip.C121_sum",
    "Jdftx.Blip.C121_covers",
    "Jdftx.Blip.C121_periodic",
    "Jdftx.Blip.C121_constant",
    "Jdftx.Blip.C121_single_fails"
   ],
   "note": "Interpolation is the periodic sum of splines for every mesh with at least two points in each direction; grids with a cutoff have at least four (GridInfo.cpp:208, 246-248). With a single point the array would be read outside its range, which is proved too. The conversion to coefficients is modelled for constant fields only, and Wigner-Seitz cells are parameters."
  },
  {
   "property": "C13",
   "status": "partial",
   "theorems": [
    "Jdftx.Input.C13_terminates_partial",
    "Jdftx.Input.C13_result_partial",
    "Jdftx.Input.C13_violation",
    "Jdftx.Input.C13_violation_set"
   ],
   "note": "Proved for values without $; false in general (two non-terminating environments proved)."
  },
  {
   "property": "C14",
   "status": "partial",
   "theorems": [
    "Jdftx.Input.C14_broadcast_partial",
    "Jdftx.Input.C14_violation"
   ],
   "note": "Proved for fields without line feeds; false otherwise (reachable witness)."
  },
  {
   "property": "C15",
   "status": "proved",
   "theorems": [
    "Jdftx.Input.C15_line",
    "Jdftx.Input.C15_file"
   ],
   "note": "Text without NUL characters."
  },
  {
   "property": "C16",
   "status": "proved",
   "theorems": [
    "Jdftx.Input.C16_terminates",
    "Jdftx.Input.C16_expansion",
    "Jdftx.Input.C16_cycle",
    "Jdftx.Input.C16_case_collision"
   ],
   "note": "Finitely many openable names, substitution ending on each line (C13). Names differing in case only are refused as cycles (proved)."
  },
  {
   "property": "C17",
   "status": "partial",
   "theorems": [
    "Jdftx.Cite.C17_pairs_partial",
    "Jdftx.Cite.C17_reason_contiguous_partial",
    "Jdftx.Cite.C17_single_reason_partial",
    "Jdftx.Cite.C17_violation"
   ],
   "note": "Every (paper, reason) pair is printed and nothing else; the grouping part is false for the code: a paper cited for several reasons can be printed in several blocks (witness proved)."
  },
  {
   "property": "C18",
   "status": "proved",
   "theorems": [
    "Jdftx.EnumMap.C18_roundtrip",
    "Jdftx.EnumMap.C18_reject",
    "Jdftx.EnumMap.C18_missing_ub",
    "Jdftx.EnumMap.C18_tables_distinct",
    "Jdftx.EnumMap.C18_tables"
   ],
   "note": "The general round trip plus the 59 tables of the code, generated as Lean literals."
  },
  {
   "property": "C19",
   "status": "proved",
   "theorems": [
    "Jdftx.Box.C19_real",
    "Jdftx.Box.C19_full",
    "Jdftx.Box.C19_half",
    "Jdftx.Box.C19_periodic",
    "Jdftx.Box.C19_mirror"
   ],
   "note": "All grid sizes with at least one sample per direction."
  },
  {
   "property": "C20",
   "status": "partial",
   "theorems": [
    "Jdftx.Box.C20_real_loop",
    "Jdftx.Box.C20_half_loop",
    "Jdftx.Box.C20_full_loop_partial",
    "Jdftx.Box.C20_full_loop_empty",
    "Jdftx.Box.C20_violation",
    "Jdftx.Box.C20_threaded",
    "Jdftx.Box.C20_full_threaded_partial"
   ],
   "note": "Real-space and half-space loops proved for all ranges. The full reciprocal-space loop tests for the end only after its body: proved for non-empty ranges; an empty range (more threads than grid points) runs out of the grid, proved as C20_violation."
  },
  {
   "property": "C21",
   "status": "proved",
   "theorems": [
    "Jdftx.Box.C21_changeGrid",
    "Jdftx.Box.C21_round_trip",
    "Jdftx.Box.C21_changeGrid_full",
    "Jdftx.Box.C21_round_trip_full",
    "Jdftx.Box.C21_nyquist_not_real"
   ],
   "note": "For every order of the threads' copies. C21_nyquist_not_real records that refining a field with a Nyquist component does not yield the coefficients of a real field."
  },
  {
   "property": "C22",
   "status": "proved",
   "theorems": [
    "Jdftx.Box.C22_complex",
    "Jdftx.Box.C22_round_trip",
    "Jdftx.Box.C22_decompose"
   ],
   "note": "For every order of the threads' writes."
  },
  {
   "property": "C23",
   "status": "partial",
   "theorems": [
    "Jdftx.Box.C23_dot_partial",
    "Jdftx.Box.C23_nrm2_partial",
    "Jdftx.Box.C23_sum_partial",
    "Jdftx.Box.C23_violation",
    "Jdftx.ExCorr.C23_real_partial"
   ],
   "note": "Proved when the sample count along the last direction is even or 1; false for odd counts of 3 or more (C23_violation)."
  },
  {
   "property": "C24",
   "status": "partial",
   "theorems": [
    "Jdftx.Grid.C24_valid_partial",
    "Jdftx.Grid.C24_check_passes",
    "Jdftx.Grid.C24_cutoff",
    "Jdftx.Grid.C24_no_cutoff_diverges"
   ],
   "note": "Holds whenever the lower bound is at least one sample per direction, which any cutoff ensures; with no cutoff at all the search never ends (proved)."
  },
  {
   "property": "C25",
   "status": "partial",
   "theorems": [
    "Jdftx.Grid.C25_exact_partial",
    "Jdftx.Grid.C25_zero_diverges"
   ],
   "note": "Exact for every positive size; size 0 never terminates (proved)."
  },
  {
   "property": "C26",
   "status": "proved",
   "theorems": [
    "Jdftx.Lat.C26_reduceMatrix",
    "Jdftx.Lat.C26_norm"
   ],
   "note": "Both scalar types; termination bound |R|/threshold."
  },
  {
   "property": "C27",
   "status": "partial",
   "theorems": [
    "Jdftx.Lat.C27_symmetries",
    "Jdftx.Lat.C27_box",
    "Jdftx.Lat.C27_characterisation",
    "Jdftx.Lat.C27_symmetries_partial",
    "Jdftx.Lat.C27_group",
    "Jdftx.Lat.C27_closure_violation"
   ],
   "note": "Proved for every lattice without vectors of squared length below 18*threshold*|R|: all exact symmetries are in the search box and reported, reported ones keep the metric within the threshold, and the list is a group when only exact symmetries are within the threshold. For lattices symmetric only approximately the list need not be closed (C27_closure_violation)."
  },
  {
   "property": "C28",
   "status": "proved",
   "theorems": [
    "Jdftx.WS.C28_reduce",
    "Jdftx.WS.C28_mesh"
   ],
   "note": "For any list of faces the constructor can make; the polyhedron construction itself is not modelled."
  },
  {
   "property": "C29",
   "status": "partial",
   "theorems": [
    "Jdftx.WS.C29_neighbours_partial",
    "Jdftx.WS.C29_violation"
   ],
   "note": "The code does not filter (its continue belongs to the inner loop): violation proved, partial holds without truncation."
  },
  {
   "property": "C30",
   "status": "proved",
   "theorems": [
    "Jdftx.PL.C30_lookup",
    "Jdftx.PL.C30_incremental",
    "Jdftx.PL.C30_coincide"
   ],
   "note": "Mesh counts are any allowed by the constructor's assertion."
  },
  {
   "property": "C31",
   "status": "proved",
   "theorems": [
    "Jdftx.Kpts.C31_fold",
    "Jdftx.Kpts.C31_total_weight",
    "Jdftx.Kpts.C31_rejects"
   ],
   "note": "Exact arithmetic over any ordered field with floor; weights adding up to one within 1e-12 (others are rejected)."
  },
  {
   "property": "C32",
   "status": "partial",
   "theorems": [
    "Jdftx.RK.C32_reduce_partial",
    "Jdftx.RK.C32_processes",
    "Jdftx.RK.C32_mesh_decisive",
    "Jdftx.RK.C32_duplicate_violation"
   ],
   "note": "Proved for lists of distinct k-points; lists with equivalent points make the code read out of range (violation proved)."
  },
  {
   "property": "C33",
   "status": "partial",
   "theorems": [
    "Jdftx.Sym.C33_average_partial",
    "Jdftx.Sym.C33_invariant_partial",
    "Jdftx.Sym.C33_fixed_partial",
    "Jdftx.Sym.C33_projection_partial",
    "Jdftx.Sym.C33_grid_check",
    "Jdftx.Sym.C33_nyquist_violation",
    "Jdftx.Sym.C33_forces",
    "Jdftx.Sym.C33_tensor"
   ],
   "note": "Fields: for operations whose translations are on the FFT mesh, the result is the group average, invariant, idempotent, fixes invariant fields, keeps the total, realness, and is self-adjoint. C33_nyquist_violation shows idempotence fails for off-mesh translations (the code checks rotations only). Forces and Cartesian tensors: full projection. Vector-spin fields and Ylm matrices are not modelled."
  },
  {
   "property": "C34",
   "status": "proved",
   "theorems": [
    "Jdftx.M3.C34_compose",
    "Jdftx.M3.C34_compose_recip",
    "Jdftx.M3.C34_assoc",
    "Jdftx.M3.C34_unit",
    "Jdftx.M3.C34_inverse",
    "Jdftx.M3.C34_inverse_applies",
    "Jdftx.M3.C34_inverse_det",
    "Jdftx.M3.C34_needs_unimodular"
   ],
   "note": "Over any commutative ring for translations; integer rotations without overflow."
  },
  {
   "property": "C35",
   "status": "proved",
   "theorems": [
    "Jdftx.Basis.C35_basis",
    "Jdftx.Basis.C35_vector",
    "Jdftx.Basis.C35_index",
    "Jdftx.Basis.C35_fits",
    "Jdftx.Basis.C35_head"
   ],
   "note": "Exact real arithmetic. C35_basis: the list holds, without repetition, exactly the vectors with kinetic energy up to the cutoff; C35_fits: on a grid of at least the minimal sample counts and k in the first cell all indices are distinct and inside the grid, and the vectors are recovered from the indices."
  },
  {
   "property": "C36",
   "status": "partial",
   "theorems": [
    "Jdftx.Min.C36_relax",
    "Jdftx.Min.C36_cubic",
    "Jdftx.Min.C36_quad_partial",
    "Jdftx.Min.C36_quad_violation"
   ],
   "note": "The contract holds for the relax and cubic-Wolfe line minimisers; for the quadratic one it fails when the step-size attempts are exhausted (witness proved)."
  },
  {
   "property": "C37",
   "status": "partial",
   "theorems": [
    "Jdftx.Min.C37_minimize_partial",
    "Jdftx.Min.C37_lbfgs_partial",
    "Jdftx.Min.C37_cubic_promise",
    "Jdftx.Min.C37_cubic_partial",
    "Jdftx.Min.C37_cubic_forward_partial",
    "Jdftx.Min.C37_quad_partial",
    "Jdftx.Min.C37_violation",
    "Jdftx.Min.C37_cubic_violation",
    "Jdftx.Min.C37_lbfgs_no_history"
   ],
   "note": "False for the code in two corner cases (witnesses proved); proved for all other executions."
  },
  {
   "property": "C38",
   "status": "proved",
   "theorems": [
    "Jdftx.Conv.C38_ediff",
    "Jdftx.Conv.C38_ediff_window",
    "Jdftx.Conv.C38_ediff_zero",
    "Jdftx.Conv.C38_norm"
   ],
   "note": "For every call history; nDiff = 0 is covered separately (any decrease then counts as converged)."
  },
  {
   "property": "C39",
   "status": "proved",
   "theorems": [
    "Jdftx.Lin.C39_solve",
    "Jdftx.Lin.C39_solve_trace",
    "Jdftx.Lin.C39_cg"
   ],
   "note": "Both conjugate-gradient loops, over any module."
  },
  {
   "property": "C40",
   "status": "partial",
   "theorems": [
    "Jdftx.Pulay.C40_overlap_partial",
    "Jdftx.Pulay.C40_reset",
    "Jdftx.Pulay.C40_load",
    "Jdftx.Pulay.C40_recent",
    "Jdftx.Pulay.C40_coefficients",
    "Jdftx.Pulay.C40_fixed_point",
    "Jdftx.Pulay.C40_violation",
    "Jdftx.Pulay.C40_no_history"
   ],
   "note": "Overlap consistency holds between resets; re-entering after convergence without a reset uses stale entries (witness proved)."
  },
  {
   "property": "C41",
   "status": "proved",
   "theorems": [
    "Jdftx.Min.C41_restores",
    "Jdftx.Min.C41_visits"
   ],
   "note": "For any additive step function."
  },
  {
   "property": "C42",
   "status": "proved",
   "theorems": [
    "Jdftx.Spline.C42_spline",
    "Jdftx.Spline.C42_gradient",
    "Jdftx.Spline.C42_limits",
    "Jdftx.Spline.C42_bounds"
   ],
   "note": "Pivots of the pentadiagonal elimination are shown positive for every N>=3."
  },
  {
   "property": "C43",
   "status": "partial",
   "theorems": [
    "Jdftx.Smear.C43_mu",
    "Jdftx.Smear.C43_field",
    "Jdftx.Smear.C43_nested_partial"
   ],
   "note": "Exact real arithmetic. In a given field (or without spin): the search finishes and is accurate, for all four smearing types. With fixed magnetization: the inner search for the field finishes and is accurate; for the outer search the bracketing guarantee is proved, termination is not."
  },
  {
   "property": "C44",
   "status": "partial",
   "theorems": [
    "Jdftx.Fill.C44_fill",
    "Jdftx.Fill.C44_adapt",
    "Jdftx.Fill.C44_setup",
    "Jdftx.Fill.C44_total",
    "Jdftx.Fill.C44_accepts",
    "Jdftx.Fill.C44_spin_violation"
   ],
   "note": "Initial fillings: proved for every number of electrons; totals proved for the automatic number of bands. With a user-given number of bands and a magnetization the sufficiency check looks only at the average over spins, so electrons are lost: C44_spin_violation."
  },
  {
   "property": "C45",
   "status": "proved",
   "theorems": [
    "Jdftx.Tetra.C45_tetrahedron",
    "Jdftx.Tetra.C45_ends",
    "Jdftx.Tetra.C45_dos",
    "Jdftx.Tetra.C45_dos_connected",
    "Jdftx.Tetra.C45_mesh",
    "Jdftx.Tetra.C45_weld",
    "Jdftx.Tetra.C45_weld_apart",
    "Jdftx.Tetra.C45_weld_sum",
    "Jdftx.Tetra.C45_volumes",
    "Jdftx.Tetra.C45_tiling",
    "Jdftx.Tetra.C45_vertices",
    "Jdftx.Tetra.C45_flat_violation",
    "Jdftx.Tetra.C45_gap_violation",
    "Jdftx.Tetra.C45_outside_violation"
   ],
   "note": "The integral of the returned density of states is the number of weighted states, for every connected mesh and every choice of eigenvalues and weights; each tetrahedron adds the derivative of its integral below an energy; the tetrahedra tile the cell with equal volumes; welding replaces linked eigenvalues by their mean. On meshes that are not connected the code fails (violation theorems); the meshes the code builds are connected. Gaussian smoothing is not part of this claim."
  },
  {
   "property": "C46",
   "status": "partial",
   "theorems": [
    "Jdftx.Dyn.C46_reversible",
    "Jdftx.Dyn.C46_reversible_exact",
    "Jdftx.Dyn.C46_velocity_sum",
    "Jdftx.Dyn.C46_momentum_partial",
    "Jdftx.Dyn.C46_momentum_violation",
    "Jdftx.Ion.C46_reversible_constrained"
   ],
   "note": "Time reversal proved for any linear projecting constraint; momentum conservation is false for unequal masses (witness proved), true for equal masses."
  },
  {
   "property": "C47",
   "status": "proved",
   "theorems": [
    "Jdftx.Dyn.C47_mean",
    "Jdftx.Dyn.C47_zero_step"
   ],
   "note": "For every non-zero time step; a zero step divides by zero."
  },
  {
   "property": "C48",
   "status": "proved",
   "theorems": [
    "Jdftx.FileIO.C48_write",
    "Jdftx.FileIO.C48_transfer",
    "Jdftx.FileIO.C48_roundtrip",
    "Jdftx.FileIO.C48_short"
   ],
   "note": "Supported sizes 1,2,4 and multiples of 8."
  },
  {
   "property": "C49",
   "status": "proved",
   "theorems": [
    "Jdftx.Kmap.C49_roundtrip",
    "Jdftx.Kmap.C49_order",
    "Jdftx.Kmap.C49_valid_lt_unset",
    "Jdftx.Kmap.C49_negative_index"
   ],
   "note": "64/32-bit vectors."
  },
  {
   "property": "C50",
   "status": "partial",
   "theorems": [
    "Jdftx.Mtx.C50_element",
    "Jdftx.Mtx.C50_get",
    "Jdftx.Mtx.C50_get_rejects",
    "Jdftx.Mtx.C50_set_partial",
    "Jdftx.Mtx.C50_accum_partial",
    "Jdftx.Mtx.C50_roundtrip_partial",
    "Jdftx.Mtx.C50_put_rejects_partial",
    "Jdftx.Mtx.C50_column_violation"
   ],
   "note": "Reading blocks is fully proved. Writing is proved for blocks inside the matrix; rows out of range are rejected, columns out of range are not (the asserts use ||), shown by C50_column_violation."
  },
  {
   "property": "C51",
   "status": "partial",
   "theorems": [
    "Jdftx.Mtx.C51_right",
    "Jdftx.Mtx.C51_left_partial",
    "Jdftx.Mtx.C51_rejects",
    "Jdftx.Mtx.C51_tall_violation",
    "Jdftx.Mtx.C51_wide_violation"
   ],
   "note": "Right product fully proved; left product for square blocks only, the code is wrong for the others (violations)."
  },
  {
   "property": "C52",
   "status": "partial",
   "theorems": [
    "Jdftx.Mtx.C52_zgemm_partial",
    "Jdftx.Mtx.C52_empty_violation"
   ],
   "note": "Proved for non-empty results, all thread counts and all orders of the element updates."
  },
  {
   "property": "C53",
   "status": "proved",
   "theorems": [
    "Jdftx.Box.C53_gradient",
    "Jdftx.Box.C53_tensor",
    "Jdftx.Box.C53_gradient_real"
   ],
   "note": "Exact arithmetic; inner products are the half-space ones of the code; also: the gradient of a real field is real."
  },
  {
   "property": "C54",
   "status": "partial",
   "theorems": [
    "Jdftx.Dump.C54_expand_partial",
    "Jdftx.Dump.C54_self_reference"
   ],
   "note": "Holds for values without '$'; a value containing its own placeholder never terminates (proved)."
  },
  {
   "property": "C55",
   "status": "proved",
   "theorems": [
    "Jdftx.Dump.C55_accepted",
    "Jdftx.Dump.C55_schedule",
    "Jdftx.Dump.C55_count",
    "Jdftx.Dump.C55_contents",
    "Jdftx.Dump.C55_not_due",
    "Jdftx.Dump.C55_interrupted"
   ],
   "note": "For every accepted command list."
  },
  {
   "property": "C56",
   "status": "partial",
   "theorems": [
    "Jdftx.Euler.C56_euler",
    "Jdftx.Euler.C56_rotation",
    "Jdftx.Euler.C56_axis",
    "Jdftx.Euler.C56_polar_violation"
   ],
   "note": "Exact real arithmetic. The angles computed from any rotation matrix give it back exactly unless its z axis is within 1e-7 of the polar axis, where every entry agrees within 1/2000. polarUnitVector/getEulerAxis describe the opposite sense of the first angle than matrixFromEuler (C56_polar_violation)."
  },
  {
   "property": "C57",
   "status": "partial",
   "theorems": [
    "Jdftx.CellMap.C57_taper",
    "Jdftx.CellMap.C57_sum_partial",
    "Jdftx.CellMap.C57_complete_partial",
    "Jdftx.CellMap.C57_transform_partial",
    "Jdftx.CellMap.C57_threshold_violation"
   ],
   "note": "Proved for every supercell whose inverse has a common denominator of at most 1/symmThreshold (otherwise the code merges different cells: C57_threshold_violation); for completeness and the transform the neighbours and radius of the Wigner-Seitz cell are assumed to cover space (Covers)."
  },
  {
   "property": "C58",
   "status": "partial",
   "theorems": [
    "Jdftx.SField.C58_programs_partial",
    "Jdftx.SField.C58_start",
    "Jdftx.SField.C58_real",
    "Jdftx.SField.C58_complex",
    "Jdftx.SField.C58_half",
    "Jdftx.SField.C58_shared_violation"
   ],
   "note": "Every program of field operations gives the same contents and sharing as on plain fields, except adding to a zero-scaled field that another variable shares, where the code itself disagrees (C58_shared_violation). Reductions read the value of the plain field in every case."
  },
  {
   "property": "C59",
   "status": "partial",
   "theorems": [
    "Jdftx.ColT.C59_index",
    "Jdftx.ColT.C59_checked",
    "Jdftx.ColT.C59_runs",
    "Jdftx.ColT.C59_wavefunction",
    "Jdftx.ColT.C59_roundtrip",
    "Jdftx.ColT.C59_wrap_violation"
   ],
   "note": "Proved whenever the images of all plane waves are in the other basis. When one is not, the check meant to detect it can pass (C59_wrap_violation). The transformation of projections (transformVdagC) is not modelled."
  },
  {
   "property": "C60",
   "status": "partial",
   "theorems": [
    "Jdftx.Mtx.C60_up_to_sign_partial",
    "Jdftx.Mtx.C60_sign_violation"
   ],
   "note": "Determinant is right only up to the sign of the row permutation chosen by LAPACK."
  },
  {
   "property": "C61",
   "status": "partial",
   "theorems": [
    "Jdftx.Ion.C61_atoms",
    "Jdftx.Ion.C61_dimension",
    "Jdftx.Ion.C61_groups_partial",
    "Jdftx.Ion.C61_mean",
    "Jdftx.Ion.C61_keeps",
    "Jdftx.Ion.C61_idempotent",
    "Jdftx.Ion.C61_groups_violation",
    "Jdftx.Ion.C61_symmetry_violation"
   ],
   "note": "Single-atom constraints proved; collective constraints only for orthogonal groups, false otherwise (witness proved); symmetrisation can break collective constraints (witness proved)."
  },
  {
   "property": "C62",
   "status": "proved",
   "theorems": [
    "Jdftx.WS.C62_boundaryDistance",
    "Jdftx.WS.C62_inRadius"
   ],
   "note": "For any list of faces the constructor can make."
  },
  {
   "property": "C63",
   "status": "proved",
   "theorems": [
    "Jdftx.Mtx.C63_product",
    "Jdftx.Mtx.C63_block_product",
    "Jdftx.Mtx.C63_rejects"
   ],
   "note": ""
  },
  {
   "property": "C64",
   "status": "partial",
   "theorems": [
    "Jdftx.Mtx.C64_convert",
    "Jdftx.Mtx.C64_dagger",
    "Jdftx.Mtx.C64_trace",
    "Jdftx.Mtx.C64_diag",
    "Jdftx.Mtx.C64_diagDot",
    "Jdftx.Mtx.C64_norm_partial",
    "Jdftx.Mtx.C64_norm_violation"
   ],
   "note": "nrm2 ignores the pending scale factor; everything else is proved in full (diagDot for at least one column)."
  },
  {
   "property": "C65",
   "status": "proved",
   "theorems": [
    "Jdftx.Smear.C65_derivative",
    "Jdftx.Smear.C65_entropy",
    "Jdftx.Smear.C65_grand",
    "Jdftx.Smear.C65_bounds"
   ],
   "note": "Exact real arithmetic. For Fermi smearing the entropy theorems hold while f and 1-f exceed the cut-off 1e-300 in the code."
  },
  {
   "property": "C66",
   "status": "proved",
   "theorems": [
    "Jdftx.Euler.C66_spinor",
    "Jdftx.Euler.C66_spin"
   ],
   "note": "Exact real arithmetic, rotations whose z axis is not within 1e-7 of, but different from, the polar axis."
  },
  {
   "property": "C67",
   "status": "partial",
   "theorems": [
    "Jdftx.Min.C67_two_loops_partial",
    "Jdftx.Min.C67_secant_partial",
    "Jdftx.Min.C67_descent_partial",
    "Jdftx.Min.C67_precond_violation"
   ],
   "note": "Proved when the preconditioner is the projection onto the allowed directions (in particular none). With any other preconditioner the code pairs 1/(s.y) with s and Ky: the secant equation fails and directions can be uphill (C67_precond_violation). The lattice minimiser uses such a preconditioner by default."
  },
  {
   "property": "C68",
   "status": "partial",
   "theorems": [
    "Jdftx.LatMin.C68_refuse",
    "Jdftx.LatMin.C68_history",
    "Jdftx.LatMin.C68_constrain",
    "Jdftx.LatMin.C68_undo_violation"
   ],
   "note": "Fixed vectors, symmetries and the projection property proved for all step histories. Undoing a step never restores the lattice (C68_undo_violation: strain factors multiply)."
  },
  {
   "property": "C69",
   "status": "partial",
   "theorems": [
    "Jdftx.Embed.C69_construct_partial",
    "Jdftx.Embed.C69_expand",
    "Jdftx.Embed.C69_adjoint",
    "Jdftx.Embed.C69_hermitian",
    "Jdftx.Embed.C69_odd_violation"
   ],
   "note": "Set-up succeeds unless no mesh point lies on the cell boundary, where the code takes the last element of an empty map (proved for odd cubic meshes); the other parts are proved whenever set-up succeeds."
  },
  {
   "property": "C70",
   "status": "partial",
   "theorems": [
    "Jdftx.Ewald.C70_periodic_forces",
    "Jdftx.Ewald.C70_periodic_stress",
    "Jdftx.Ewald.C70_periodic_momentum",
    "Jdftx.Ewald.C70_periodic_images",
    "Jdftx.Ewald.C70_slab_forces",
    "Jdftx.Ewald.C70_slab_stress",
    "Jdftx.Ewald.C70_slab_momentum",
    "Jdftx.Ewald.C70_isolated_forces_partial",
    "Jdftx.Ewald.C70_isolated_stress_partial",
    "Jdftx.Ewald.C70_isolated_momentum"
   ],
   "note": "Periodic and slab sums: proved. Isolated: proved where the reduction to the Wigner-Seitz cell follows small displacements. Atoms exactly on the surface of the unit cell, where truncated sums jump, are excluded. The wire geometry, which interpolates tables of special functions, is not modelled."
  },
  {
   "property": "C71",
   "status": "partial",
   "theorems": [
    "Jdftx.D2.C71_pair",
    "Jdftx.D2.C71_energy",
    "Jdftx.D2.C71_processes",
    "Jdftx.D2.C71_forces",
    "Jdftx.D2.C71_stress",
    "Jdftx.D2.C71_momentum",
    "Jdftx.D2.C71_images_violation"
   ],
   "note": "Energy, forces, stress, momentum and independence of the number of processes proved, except at the distances where the pair function has a jump or kink. Independence of the chosen periodic image fails (C71_images_violation)."
  },
  {
   "property": "C72",
   "status": "partial",
   "theorems": [
    "Jdftx.LDA.C72_energy",
    "Jdftx.LDA.C72_spin_energy",
    "Jdftx.LDA.C72_potential",
    "Jdftx.LDA.C72_spin_potential",
    "Jdftx.LDA.C72_unpolarised",
    "Jdftx.LDA.C72_spin_flip",
    "Jdftx.LDA.C72_ferromagnetic",
    "Jdftx.LDA.C72_pz_jump_violation"
   ],
   "note": "Energies and potentials proved for positive densities away from the points where the formulas switch: the cutoff density and, for Perdew-Zunger, rs = 1. Continuity fails there (C72_pz_jump_violation)."
  },
  {
   "property": "C73",
   "status": "proved",
   "theorems": [
    "Jdftx.SpinDiag.C73_rotation",
    "Jdftx.SpinDiag.C73_trace",
    "Jdftx.SpinDiag.C73_eigenvalues",
    "Jdftx.SpinDiag.C73_gradient",
    "Jdftx.SpinDiag.C73_gradient_self"
   ],
   "note": "Exact real arithmetic, one grid point."
  },
  {
   "property": "C74",
   "status": "partial",
   "theorems": [
    "Jdftx.ExCorr.C74_processes",
    "Jdftx.ExCorr.C74_potential_partial",
    "Jdftx.ExCorr.C74_noncollinear_lda",
    "Jdftx.ExCorr.C74_noncollinear_violation"
   ],
   "note": "Proved for collinear spins, for noncollinear spins with local functionals, and for noncollinear spins on one process. With noncollinear spins, a gradient functional and several processes, processes return different potentials (C74_noncollinear_violation). Stress and LibXC functionals are not modelled."
  },
  {
   "property": "C75",
   "status": "proved",
   "theorems": [
    "Jdftx.States.C75_sums",
    "Jdftx.States.C75_spin_copies",
    "Jdftx.States.C75_offset",
    "Jdftx.States.C75_mesh",
    "Jdftx.States.C75_electrons"
   ],
   "note": "Composition of the folding (C31), reduction (C32) and fillings (C44) models with the code that adds spin. Meshes with equivalent points are excluded as in C32."
  },
  {
   "property": "C76",
   "status": "partial",
   "theorems": [
    "Jdftx.Cavity.C76_range",
    "Jdftx.Cavity.C76_gradient_partial",
    "Jdftx.Cavity.C76_negative_violation",
    "Jdftx.Cavity.C76_sccs_gradient",
    "Jdftx.Cavity.C76_sccs_range"
   ],
   "note": "Range, monotonicity and gradients proved for the GLSSA13 and SCCS shape functions. For GLSSA13 the gradient is correct at non-negative densities only; at negative densities it has the wrong sign (C76_negative_violation)."
  },
  {
   "property": "C77",
   "status": "partial",
   "theorems": [
    "Jdftx.Cavity.C77_range",
    "Jdftx.Cavity.C77_gradient_partial",
    "Jdftx.Cavity.C77_expand_partial"
   ],
   "note": "Gradients proved for all densities, potentials and parameters except where the code's cutoffs make the functions jump (density exactly 1e-8 or 1e-9, field exactly at the tanh cutoff). Stress is not modelled."
  },
  {
   "property": "C78",
   "status": "proved",
   "theorems": [
    "Jdftx.ExCorr.C78_real",
    "Jdftx.ExCorr.C78_reciprocal",
    "Jdftx.ExCorr.C78_adjoint",
    "Jdftx.ExCorr.C78_parseval"
   ],
   "note": "The FFT library is modelled by the definition of the discrete Fourier transform; scale factors, half-space storage and symmetry are as in the code."
  },
  {
   "property": "C79",
   "status": "partial",
   "theorems": [
    "Jdftx.Cavity.C79_range",
    "Jdftx.Cavity.C79_images",
    "Jdftx.Cavity.C79_translations",
    "Jdftx.Cavity.C79_radii",
    "Jdftx.Cavity.C79_gradient_partial"
   ],
   "note": "Range, periodicity, translations and monotonicity proved. Gradients proved except where the code drops contributions (shape below 1e-14, atoms on grid points) and on the surface of the cell around an atom, where the shape has kinks."
  },
  {
   "property": "C80",
   "status": "partial",
   "theorems": [
    "Jdftx.NPCM.C80_limit",
    "Jdftx.NPCM.C80_packing",
    "Jdftx.NPCM.C80_unique",
    "Jdftx.NPCM.C80_bulk",
    "Jdftx.NPCM.C80_charge",
    "Jdftx.NPCM.C80_positive",
    "Jdftx.NPCM.C80_correlation",
    "Jdftx.NPCM.C80_field",
    "Jdftx.NPCM.C80_polarisation",
    "Jdftx.NPCM.C80_zero_field",
    "Jdftx.NPCM.C80_infinite_field",
    "Jdftx.NPCM.C80_linear",
    "Jdftx.NPCM.C80_screening",
    "Jdftx.NPCM.C80_dielectric",
    "Jdftx.NPCM.C80_tables",
    "Jdftx.NPCM.C80_linear_dielectric_violation",
    "Jdftx.NPCM.C80_linear_screening_violation"
   ],
   "note": "Searches end and bracket the solution; tables, interpolation and all derivatives of the per-point functions, the constructors' checks. Uniqueness of the equilibrium is proved up to bulk packing fraction 1/3 and sign of the energy up to 1/2; the polarisation theorem excludes the range of the truncated series. The options for linear response do not give a linear response: two violations are proved."
  },
  {
   "property": "C81",
   "status": "partial",
   "theorems": [
    "Jdftx.PCM.C81_symmetric_partial",
    "Jdftx.PCM.C81_positive_partial",
    "Jdftx.PCM.C81_preconditioner_partial",
    "Jdftx.PCM.C81_gradients_partial",
    "Jdftx.PCM.C81_solved_partial",
    "Jdftx.PCM.C81_variational_partial"
   ],
   "note": "Proved on grids whose last dimension is 1 or even, where the inner product counts every vector once (C23). Stresses, epsilonOverride and cavitation terms are not modelled; propagation from shape functions to densities is C76, C77, C79. That the CG iteration reaches the solution is not claimed."
  },
  {
   "property": "C82",
   "status": "partial",
   "theorems": [
    "Jdftx.PCM.C82_compute_partial",
    "Jdftx.PCM.C82_gradients_partial",
    "Jdftx.PCM.C82_energy_partial",
    "Jdftx.PCM.C82_solved_partial",
    "Jdftx.PCM.C82_tables"
   ],
   "note": "Proved on grids whose last dimension is 1 or even (C23), at potentials where the tabulated ionic energy is finite. Stresses are not modelled."
  },
  {
   "property": "C83",
   "status": "partial",
   "theorems": [
    "Jdftx.Lin.C83_optimal",
    "Jdftx.Lin.C83_converges",
    "Jdftx.Lin.C83_count",
    "Jdftx.Lin.C83_cg_optimal",
    "Jdftx.Lin.C83_cg_converges",
    "Jdftx.Lin.C83_cg_stops",
    "Jdftx.Lin.C83_best_partial",
    "Jdftx.Lin.C83_best_violation"
   ],
   "note": "Both conjugate-gradient solvers: optimality of every iterate and convergence within the dimension of the space, in exact arithmetic and for positive definite operators and preconditioners. That the perturbation solver returns the best state it saw is false at the iteration limit (C83_best_violation)."
  },
  {
   "property": "C84",
   "status": "partial",
   "theorems": [
    "Jdftx.MinRes.C84_reported",
    "Jdftx.MinRes.C84_minimal",
    "Jdftx.MinRes.C84_progress",
    "Jdftx.MinRes.C84_ends",
    "Jdftx.MinRes.C84_converges_partial",
    "Jdftx.MinRes.C84_start_violation"
   ],
   "note": "MINRES of perturbation theory, in exact arithmetic with divisions by zero explicit. Convergence excludes initial states that already solve the equation, for which the code returns not-a-number (C84_start_violation)."
  },
  {
   "property": "C85",
   "status": "partial",
   "theorems": [
    "Jdftx.ElecMin.C85_slope_charge_partial",
    "Jdftx.ElecMin.C85_slope_potential_partial",
    "Jdftx.ElecMin.C85_slope_fixed_partial",
    "Jdftx.ElecMin.C85_start",
    "Jdftx.ElecMin.C85_steps",
    "Jdftx.ElecMin.C85_line",
    "Jdftx.ElecMin.C85_constrain",
    "Jdftx.ElecMin.C85_gradient",
    "Jdftx.ElecMin.C85_fixed_weights_fails",
    "Jdftx.ElecMin.C85_field_potential_fails",
    "Jdftx.ElecMin.C85_moment_potential_fails",
    "Jdftx.ElecMin.C85_scalar_line_fails",
    "Jdftx.ElecMin.C85_stale_gradient_fails"
   ],
   "note": "Slope = derivative of the reported free energy proved for fixed charge (Fermi and Gaussian smearing, with fixed magnetization or given field or none), fixed potential without field (all smearings) and constant fillings (scalar, or weight one); steps never exit and keep orthonormality and unitary rotations; the visited space and auxiliary Hamiltonian depend only on the total step. Missing: Methfessel-Paxton and cold smearing at fixed charge, eigenvalues closer than 1e-6 but not equal, the preconditioner. Violated, with proved witnesses: non-scalar constant fillings with weight other than one, fixed potential with field or with fixed magnetization, path dependence for constant scalar fillings, gradient carried over the report."
  },
  {
   "property": "C86",
   "status": "partial",
   "theorems": [
    "Jdftx.MatFunc.C86_choice",
    "Jdftx.MatFunc.C86_exit",
    "Jdftx.MatFunc.C86_powers",
    "Jdftx.MatFunc.C86_semidefinite",
    "Jdftx.MatFunc.C86_positive_part",
    "Jdftx.MatFunc.C86_pseudoinverse",
    "Jdftx.MatFunc.C86_closest",
    "Jdftx.MatFunc.C86_rotations_partial",
    "Jdftx.MatFunc.C86_lost_flag_fails",
    "Jdftx.MatFunc.C86_cis",
    "Jdftx.MatFunc.C86_cisInv",
    "Jdftx.MatFunc.C86_sqrt_grad",
    "Jdftx.MatFunc.C86_cis_grad",
    "Jdftx.MatFunc.C86_cis_grad_literal_fails",
    "Jdftx.MatFunc.C86_exchange"
   ],
   "note": "Powers, exponential, logarithm of unitary matrices and the two gradients, over exact complex matrices with LAPACK's diagonalisation as parameter; used for the rotations of the Wannier minimiser and the compressed exchange operator. Missing: eigenvalues closer than 1e-13 but not equal in cis_grad. Violated: the Wannier minimiser loses the singular flag of the first rotation (C86_lost_flag_fails), so the claim about reported errors is only proved if the columns of the first rotation are independent (C86_rotations_partial); the gradient documented for cis is one rotated by its adjoint (C86_cis_grad_literal_fails)."
  },
  {
   "property": "C87",
   "status": "partial",
   "theorems": [
    "Jdftx.GGA.C87_potential",
    "Jdftx.GGA.C87_spin_potential",
    "Jdftx.GGA.C87_energy",
    "Jdftx.GGA.C87_spin_energy",
    "Jdftx.GGA.C87_uniform",
    "Jdftx.GGA.C87_unpolarised",
    "Jdftx.GGA.C87_spin_flip",
    "Jdftx.GGA.C87_exchange_bound",
    "Jdftx.GGA.C87_correlation_bound",
    "Jdftx.GGA.C87_grid",
    "Jdftx.GGA.C87_spin_grid",
    "Jdftx.GGA.C87_integrals",
    "Jdftx.GGA.C87_screened_energy_partial",
    "Jdftx.GGA.C87_screened_spin_energy_partial",
    "Jdftx.GGA.C87_screened_violation",
    "Jdftx.GGA.C87_screened_limit_violation",
    "Jdftx.GGA.C87_lb94_violation",
    "Jdftx.GGA.C87_screened_hole_violation",
    "Jdftx.GGA.C87_screened_uniform_violation",
    "Jdftx.GGA.C87_screened_range_violation"
   ],
   "note": "PBE, PBEsol, PW91 exchange and correlation, the von Weizsaecker and PW91k kinetic functionals: energies as published, potentials their derivatives, at zero gradient too, also assembled on a grid over any number of processes. Screened PBE exchange (HSE06): derivatives where it is smooth; the energy is the integral of the published hole with the screened interaction, except for two proved disagreements: one coefficient of the hole (C87_screened_hole_violation, C87_screened_uniform_violation) and the screening parameter (C87_screened_range_violation). Also violated: the screened functional's potential is not a number at zero gradient (C87_screened_violation) and its limited gradient jumps (C87_screened_limit_violation); LB94 has no energy but is not marked so (C87_lb94_violation)."
  },
  {
   "property": "C88",
   "status": "proved",
   "theorems": [
    "Jdftx.Ylm.C88_definition",
    "Jdftx.Ylm.C88_homogeneous",
    "Jdftx.Ylm.C88_parity",
    "Jdftx.Ylm.C88_laplace",
    "Jdftx.Ylm.C88_gradient",
    "Jdftx.Ylm.C88_product",
    "Jdftx.Ylm.C88_selection",
    "Jdftx.Ylm.C88_bessel",
    "Jdftx.Ylm.C88_bessel_zero"
   ],
   "note": "All 49 harmonics against Legendre polynomials on the whole sphere (1e-14), Laplace equation and degree exactly, the coded gradient (3e-14), all 136 entries of the product table in both orders (2e-15), spherical Bessel functions up to l=6 on the whole axis (4e-15 of the leading power). Decimal constants are taken as the rational numbers they denote; rounding in the evaluation is not modelled."
  },
  {
   "property": "C89",
   "status": "partial",
   "theorems": [
    "Jdftx.Stat.C89_energy",
    "Jdftx.Stat.C89_thermostat_energy",
    "Jdftx.Stat.C89_barostat_energy",
    "Jdftx.Stat.C89_pressure_energy",
    "Jdftx.Stat.C89_defined",
    "Jdftx.Stat.C89_berendsen",
    "Jdftx.Stat.C89_berendsen_direction",
    "Jdftx.Stat.C89_initial",
    "Jdftx.Stat.C89_workless",
    "Jdftx.Stat.C89_energy_drift",
    "Jdftx.Stat.C89_degrees",
    "Jdftx.Stat.C89_canonical",
    "Jdftx.Stat.C89_stationary",
    "Jdftx.Stat.C89_lattice_workless",
    "Jdftx.Stat.C89_chain_violation",
    "Jdftx.Stat.C89_energy_violation",
    "Jdftx.Stat.C89_degrees_violation",
    "Jdftx.Stat.C89_external_violation",
    "Jdftx.Stat.C89_fixed_violation"
   ],
   "note": "Conservation laws of the equations of motion in continuous time for every chain length, mass, constraint on lines and planes, and barostat; stationarity of the canonical distribution for the thermostat without barostat. The code violates the property for atoms of unequal mass when nothing is constrained, for collective constraints, external potentials, fixed atoms and empty chains; witnesses proved. Discretisation in time and symmetries are not part of these theorems."
  },
  {
   "property": "C90",
   "status": "partial",
   "theorems": [
    "Jdftx.FindGroup.C90_group",
    "Jdftx.FindGroup.C90_atoms",
    "Jdftx.FindGroup.C90_empty",
    "Jdftx.FindGroup.C90_sound",
    "Jdftx.FindGroup.C90_maps",
    "Jdftx.FindGroup.C90_sort",
    "Jdftx.FindGroup.C90_moments",
    "Jdftx.FindGroup.C90_constraints",
    "Jdftx.FindGroup.C90_field_ramp",
    "Jdftx.FindGroup.C90_unused_violation",
    "Jdftx.FindGroup.C90_perturbation_violation",
    "Jdftx.FindGroup.C90_field_violation",
    "Jdftx.FindGroup.C90_hyperplane_violation"
   ],
   "note": "For crystals that are not marginally symmetric: detection succeeds, the operations are an exact space group with the identity first, complete and sound within the tolerance, and the symmetrised positions are exactly symmetric. Without that assumption: every operation and atom map of a successful run is right within the tolerance. The code violates the property when the first species listed has no atoms, for atom perturbations and for fields along periodic directions (proved). Supercells (phonon) are not modelled."
  },
  {
   "property": "C91",
   "status": "partial",
   "theorems": [
    "Jdftx.CoulK.C91_periodic",
    "Jdftx.CoulK.C91_sphere",
    "Jdftx.CoulK.C91_slab",
    "Jdftx.CoulK.C91_ion",
    "Jdftx.CoulK.planePotential_ok",
    "Jdftx.CoulK.C91_stress_periodic",
    "Jdftx.CoulK.C91_stress_sphere_partial",
    "Jdftx.CoulK.C91_stress_slab",
    "Jdftx.CoulK.C91_stress_ion",
    "Jdftx.CoulK.C91_sphere_violation"
   ],
   "note": "Each kernel is the Fourier transform of the truncated interaction for every wave vector, and the returned matrix is the strain derivative. Partial: for the spherical kernel only at fixed radius; with the default radius (in-radius of the cell) the derivative is wrong (C91_sphere_violation). The numerical kernels of wire and Wigner-Seitz truncation are not modelled."
  },
  {
   "property": "C92",
   "status": "partial",
   "theorems": [
    "Jdftx.CoulK.C92_screened",
    "Jdftx.CoulK.C92_sphere",
    "Jdftx.CoulK.C92_sphere_screened",
    "Jdftx.CoulK.C92_slab",
    "Jdftx.CoulK.C92_stress_periodic",
    "Jdftx.CoulK.C92_stress_screened",
    "Jdftx.CoulK.C92_stress_sphere",
    "Jdftx.CoulK.C92_stress_slab",
    "Jdftx.CoulK.C92_probe",
    "Jdftx.CoulK.C92_axis_partial",
    "Jdftx.CoulK.C92_real_index",
    "Jdftx.CoulK.C92_extract",
    "Jdftx.CoulK.C92_trans_partial",
    "Jdftx.CoulK.C92_offset_violation",
    "Jdftx.CoulK.C92_fixed_violation",
    "Jdftx.CoulK.C92_slab_screened_violation",
    "Jdftx.CoulK.C92_trans_violation"
   ],
   "note": "Values of the analytic exchange kernels, strain derivatives of the exchange energy of a pair density, look-up of tabulated kernels. Partial because the code violates the property: offsets by a reciprocal lattice vector, fixed radius, screened slab, edge of the grid, odd grids. Splines and the auxiliary-function correction are not modelled here."
  },
  {
   "property": "C93",
   "status": "partial",
   "theorems": [
    "Jdftx.Fluid.C93_tensor",
    "Jdftx.Fluid.C93_white_bear",
    "Jdftx.Fluid.C93_mixture_gradient_partial",
    "Jdftx.Fluid.C93_uniform",
    "Jdftx.Fluid.C93_uniform_gradient_partial",
    "Jdftx.Fluid.C93_carnahan_starling",
    "Jdftx.Fluid.C93_eos_partial",
    "Jdftx.Fluid.C93_eos_gradient",
    "Jdftx.Fluid.C93_eos_uniform",
    "Jdftx.Fluid.C93_kernel_norm",
    "Jdftx.Fluid.C93_eos_total",
    "Jdftx.Fluid.C93_self_partial",
    "Jdftx.Fluid.C93_mix_partial",
    "Jdftx.Fluid.C93_fitted_gradient_partial",
    "Jdftx.Fluid.C93_fitted_uniform_fails",
    "Jdftx.Fluid.C93_fitted_accumulate_fails"
   ],
   "note": "Hard spheres, bonds, equations of state, quadratic functionals and the fitted correlations of water on a Fourier grid. Partial: gradients are not claimed where a weighted density is zero or where the program changes formulas; quadratic functionals need an even last dimension of the grid (see C23). The uniform energy of the fitted correlations violates the property (C93_fitted_uniform_fails). Ideal gas and orientations are not part of this property."
  },
  {
   "property": "C94",
   "status": "proved",
   "theorems": [
    "Jdftx.Fluid.C94_transpose",
    "Jdftx.Fluid.C94_conserve",
    "Jdftx.Fluid.C94_uniform",
    "Jdftx.Fluid.C94_exact",
    "Jdftx.Fluid.C94_constant",
    "Jdftx.Fluid.C94_linear",
    "Jdftx.Fluid.C94_fourier",
    "Jdftx.Fluid.C94_bounds",
    "Jdftx.Fluid.C94_in_range",
    "Jdftx.Fluid.C94_direction_fails"
   ],
   "note": "All three operators, all grids and vectors. The direction of translation is the opposite of the comment in the header (C94_direction_fails); the callers use the direction of the code."
  },
  {
   "property": "C95",
   "status": "partial",
   "theorems": [
    "Jdftx.Fluid.C95_gradient_partial",
    "Jdftx.Fluid.C95_ions",
    "Jdftx.Fluid.C95_evaluate",
    "Jdftx.Fluid.C95_gas_mono",
    "Jdftx.Fluid.C95_gas_orient_partial",
    "Jdftx.Fluid.C95_orient_nonneg",
    "Jdftx.Fluid.C95_term_coulomb",
    "Jdftx.Fluid.C95_term_spheres",
    "Jdftx.Fluid.C95_term_eos",
    "Jdftx.Fluid.C95_term_pair",
    "Jdftx.Fluid.C95_number",
    "Jdftx.Fluid.C95_die",
    "Jdftx.Fluid.C95_neutral_exists_partial",
    "Jdftx.Fluid.C95_neutral_partial",
    "Jdftx.Fluid.C95_newton_fails",
    "Jdftx.Fluid.C95_one_sign_fails",
    "Jdftx.Fluid.C95_dipole_fails"
   ],
   "note": "Gradient proved for the exactly neutral cell, for monoatomic gases, for rigid molecules in all three representations when the scale factor is 1 or there is no dipole correlation correction, and for all contributions to the excess energy. The code violates the rest: Newton's method stops after ten steps without a test (C95_newton_fails), fluids of one charged component pass the test for neutrality (C95_one_sign_fails), and the gradient is wrong for dipolar molecules with a prescribed number (C95_dipole_fails). Polarizable molecules are not modelled."
  },
  {
   "property": "C96",
   "status": "partial",
   "theorems": [
    "Jdftx.Fluid.C96_crossing",
    "Jdftx.Fluid.C96_search",
    "Jdftx.Fluid.C96_terminates",
    "Jdftx.Fluid.C96_negative_fails",
    "Jdftx.Fluid.C96_potential",
    "Jdftx.Fluid.C96_pressure",
    "Jdftx.Fluid.C96_uniform_terms_partial",
    "Jdftx.Fluid.C96_carnahan_starling",
    "Jdftx.Fluid.C96_hard_spheres",
    "Jdftx.Fluid.C96_hard_spheres_compressed",
    "Jdftx.Fluid.C96_bulk",
    "Jdftx.Fluid.C96_gas",
    "Jdftx.Fluid.C96_terms"
   ],
   "note": "The density that is found has the target pressure to relative precision 1.1e-12 wherever the pressure is a continuous function of the density; the pressure is minus the derivative of the free energy, the bulk state is stationary. Missing: the search never ends for negative target pressures (C96_negative_fails); contributions fitted to water, polarizable molecules, dielectric constants and the boiling pressure are not covered; hard spheres below a packing fraction of 0.005, where the code joins expansions with jumps, are excluded from C96_carnahan_starling."
  },
  {
   "property": "C97",
   "status": "partial",
   "theorems": [
    "Jdftx.EXX.C97_partition",
    "Jdftx.EXX.C97_balance",
    "Jdftx.EXX.C97_occupations_partial",
    "Jdftx.EXX.C97_chunk_fails",
    "Jdftx.EXX.C97_energy",
    "Jdftx.EXX.C97_processes",
    "Jdftx.EXX.C97_sign",
    "Jdftx.EXX.C97_gradient",
    "Jdftx.EXX.C97_search_partial",
    "Jdftx.EXX.C97_compressed"
   ],
   "note": "Energy, gradient, division of work and compressed operator for scalar orbitals. C97_occupations_partial: the program does not stop if no band costs more than the total divided by the number of processes; C97_chunk_fails shows that it can stop otherwise. C97_search_partial: the reported number of pairs is that of the transforms used unless no step improved on the random start. Spinors, stress, the random-phase mode and the messages between processes are not modelled."
  },
  {
   "property": "C98",
   "status": "partial",
   "theorems": [
    "Jdftx.Phonon.C98_cells",
    "Jdftx.Phonon.C98_refine",
    "Jdftx.Phonon.C98_map",
    "Jdftx.Phonon.C98_remap",
    "Jdftx.Phonon.C98_herm_check",
    "Jdftx.Phonon.C98_gamma_partial",
    "Jdftx.Phonon.C98_gamma_solvable",
    "Jdftx.Phonon.C98_axes_fails",
    "Jdftx.Phonon.C98_single_fails",
    "Jdftx.Phonon.C98_acoustic",
    "Jdftx.Phonon.C98_free_energy",
    "Jdftx.Phonon.C98_thermodynamics",
    "Jdftx.Phonon.C98_quadrature",
    "Jdftx.Phonon.C98_gauss",
    "Jdftx.Phonon.C98_isolated_fails"
   ],
   "note": "Refinement of the gradients, distribution over the cell map, correction at the zone centre, Hermitian frequencies with zero acoustic frequencies, free energies and quadrature. Missing: the correction has no finite result for a slab or wire whose truncated lattice vector lies along another Cartesian axis (C98_axes_fails), or when only one cell is in the map (C98_single_fails); the free energies of a molecule are zero (C98_isolated_fails). Electron-phonon matrix elements are not modelled."
  },
  {
   "property": "C99",
   "status": "partial",
   "theorems": [
    "Jdftx.PhonPert.C99_directions",
    "Jdftx.PhonPert.C99_exact_partial",
    "Jdftx.PhonPert.C99_finite_difference_partial",
    "Jdftx.PhonPert.C99_number",
    "Jdftx.PhonPert.C99_manual_fails"
   ],
   "note": "With the space group of the supercell (up to translations by unit cells), the displacements that are computed give the central difference of every mode; the consistency check never fires; the directions are orthonormal for any lattice. Missing: symmetries specified by the user are converted to the supercell with the wrong matrix (negation proved), so that valid input can stop the program."
  }
 ]
}