# Axioms used by each property theorem

Output of `#print axioms` for every theorem named in MANIFEST.json, grouped by result.

## propext, Classical.choice, Quot.sound

* `Jdftx.TaskDiv.C01_partition`
* `Jdftx.TaskDiv.C01_owner`
* `Jdftx.Thr.C02_exact_cover_partial`
* `Jdftx.Thr.C03_accumulate`
* `Jdftx.Thr.C03_mutual_exclusion`
* `Jdftx.Thr.C03_completes`
* `Jdftx.Thr.C05_scatter_injective`
* `Jdftx.Thr.C05_gather`
* `Jdftx.Thr.C05_scatter_one_thread`
* `Jdftx.Thr.C05_lost_update`
* `Jdftx.FileIO.C06_write`
* `Jdftx.FileIO.C06_read`
* `Jdftx.FileIO.C06_roundtrip`
* `Jdftx.Coll.C07_agreement`
* `Jdftx.Coll.C08_write_partial`
* `Jdftx.Coll.C08_roundtrip_partial`
* `Jdftx.MemCache.C09_alloc`
* `Jdftx.MemCache.C09_free`
* `Jdftx.MemCache.C09_accounting`
* `Jdftx.MemCache.C09_target`
* `Jdftx.MemCache.C09_no_ub`
* `Jdftx.Cmd.C10_levels`
* `Jdftx.Cmd.C10_order`
* `Jdftx.Cmd.C10_accepted`
* `Jdftx.Cmd.C10_defaults`
* `Jdftx.Cmd.C10_parameters`
* `Jdftx.Wan.C100_gradient`
* `Jdftx.Wan.C100_invariant_gradient`
* `Jdftx.Wan.C100_steps`
* `Jdftx.Wan.C100_decomposition`
* `Jdftx.Wan.C100_bounds`
* `Jdftx.Wan.C100_mixing`
* `Jdftx.Wan.C100_points`
* `Jdftx.Wan.C100_origin`
* `Jdftx.WanFD.C101_formula_partial`
* `Jdftx.WanFD.C101_found`
* `Jdftx.WanFD.C101_turned_fails`
* `Jdftx.WanFD.C101_swapped_fails`
* `Jdftx.WanFD.C101_chain_fails`
* `Jdftx.WanFD.C101_fine_fails`
* `Jdftx.WanFD.C101_nearest`
* `Jdftx.Psp.C102_local_forces`
* `Jdftx.Psp.C102_local_stress`
* `Jdftx.Psp.C102_nonlocal_forces`
* `Jdftx.Psp.C102_nonlocal_stress`
* `Jdftx.Psp.C102_velocity_partial`
* `Jdftx.Psp.C102_velocity_zero_fails`
* `Jdftx.Psp.C102_cache`
* `Jdftx.Psp.C102_cache_stale_fails`
* `Jdftx.DftU.C103_wavefunctions`
* `Jdftx.DftU.C103_forces`
* `Jdftx.DftU.C103_stress`
* `Jdftx.DftU.C103_symmetric`
* `Jdftx.DftU.C103_rotation`
* `Jdftx.DftU.C103_penalty`
* `Jdftx.DftU.C103_s_fails`
* `Jdftx.DftU.C103_vext_fails`
* `Jdftx.IonExt.C104_gauss_forces`
* `Jdftx.IonExt.C104_gauss_energy`
* `Jdftx.IonExt.C104_gauss_stress`
* `Jdftx.IonExt.C104_gauss_periodic`
* `Jdftx.IonExt.C104_select`
* `Jdftx.IonExt.C104_bond`
* `Jdftx.IonExt.C104_history`
* `Jdftx.IonExt.C104_image_partial`
* `Jdftx.IonExt.C104_double_fails`
* `Jdftx.IonExt.C104_coincide_fails`
* `Jdftx.IonExt.C104_resolution_fails`
* `Jdftx.IonExt.C104_bond_stress_fails`
* `Jdftx.IonExt.C104_image_fails`
* `Jdftx.Vib.C105_positions`
* `Jdftx.Vib.C105_directions`
* `Jdftx.Vib.C105_directions_partial`
* `Jdftx.Vib.C105_force_matrix`
* `Jdftx.Vib.C105_dipole`
* `Jdftx.Vib.C105_projection`
* `Jdftx.Vib.C105_normal_modes`
* `Jdftx.Vib.C105_classify_partial`
* `Jdftx.Vib.C105_thermodynamics`
* `Jdftx.Vib.C105_degeneracy`
* `Jdftx.Vib.C105_phase`
* `Jdftx.Vib.C105_printed`
* `Jdftx.Vib.C105_unwrap`
* `Jdftx.Vib.C105_planar_fails`
* `Jdftx.Vib.C105_supercell_fails`
* `Jdftx.Vib.C105_imaginary_fails`
* `Jdftx.Vib.C105_cutoff_fails`
* `Jdftx.Vib.C105_phase_fails`
* `Jdftx.Vib.C105_still_fails`
* `Jdftx.Vib.C105_few_modes_fails`
* `Jdftx.D3.C106_elements`
* `Jdftx.D3.C106_pair_index`
* `Jdftx.D3.C106_coordination`
* `Jdftx.D3.C106_weights`
* `Jdftx.D3.C106_underflow`
* `Jdftx.D3.C106_matrix`
* `Jdftx.D3.C106_energy_partial`
* `Jdftx.D3.C106_processes`
* `Jdftx.D3.C106_attractive`
* `Jdftx.D3.C106_forces`
* `Jdftx.D3.C106_stress`
* `Jdftx.D3.C106_momentum`
* `Jdftx.D3.C106_coefficients_fails`
* `Jdftx.D3.C106_skewed_fails`
* `Jdftx.SCF.C107_kernels`
* `Jdftx.SCF.C107_average`
* `Jdftx.SCF.C107_screening`
* `Jdftx.SCF.C107_shortest`
* `Jdftx.SCF.C107_inner_product`
* `Jdftx.SCF.C107_solvable`
* `Jdftx.SCF.C107_smallest`
* `Jdftx.SCF.C107_every_update`
* `Jdftx.SCF.C107_electrons`
* `Jdftx.SCF.C107_stationary`
* `Jdftx.SCF.C107_axes`
* `Jdftx.SCF.C107_state`
* `Jdftx.SCF.C107_history`
* `Jdftx.SCF.C107_file_size`
* `Jdftx.SCF.C107_eigenvalues`
* `Jdftx.SCF.C107_potential_axes_fails`
* `Jdftx.SCF.C107_shortest_fails`
* `Jdftx.Davidson.C108_preconditioner`
* `Jdftx.Davidson.C108_expansion`
* `Jdftx.Davidson.C108_iteration`
* `Jdftx.Davidson.C108_progress`
* `Jdftx.Davidson.C108_energy`
* `Jdftx.Davidson.C108_result`
* `Jdftx.Davidson.C108_bound`
* `Jdftx.Davidson.C108_convergence`
* `Jdftx.Davidson.C108_targets`
* `Jdftx.Davidson.C108_size`
* `Jdftx.Davidson.C108_solutions`
* `Jdftx.Davidson.C108_single`
* `Jdftx.Davidson.C108_dependent`
* `Jdftx.Davidson.C108_dependent_fails`
* `Jdftx.Davidson.C108_constant_fails`
* `Jdftx.Davidson.C108_lowest_fails`
* `Jdftx.GLLB.C109_edges`
* `Jdftx.GLLB.C109_processes`
* `Jdftx.GLLB.C109_smeared`
* `Jdftx.GLLB.C109_root`
* `Jdftx.GLLB.C109_potential`
* `Jdftx.GLLB.C109_discontinuity`
* `Jdftx.GLLB.C109_shift`
* `Jdftx.GLLB.C109_quasiparticles`
* `Jdftx.GLLB.C109_occupied`
* `Jdftx.GLLB.C109_gap`
* `Jdftx.GLLB.C109_root_fails`
* `Jdftx.GLLB.C109_smearing_fails`
* `Jdftx.GLLB.C109_spin_fails`
* `Jdftx.FCI.C110_elements`
* `Jdftx.FCI.C110_lines`
* `Jdftx.FCI.C110_processes`
* `Jdftx.FCI.C110_threshold`
* `Jdftx.FCI.C110_numbers`
* `Jdftx.FCI.C110_pairs`
* `Jdftx.FCI.C110_range`
* `Jdftx.FCI.C110_one`
* `Jdftx.FCI.C110_complete_partial`
* `Jdftx.FCI.C110_complete_fails`
* `Jdftx.Excite.C111_processes`
* `Jdftx.Excite.C111_written`
* `Jdftx.Excite.C111_lines`
* `Jdftx.Excite.C111_direct`
* `Jdftx.Excite.C111_edges`
* `Jdftx.Excite.C111_strength`
* `Jdftx.Excite.C111_dipole_partial`
* `Jdftx.Excite.C111_empty_fails`
* `Jdftx.Excite.C111_complex_fails`
* `Jdftx.Excite.C111_spinor_fails`
* `Jdftx.Aug.C112_order`
* `Jdftx.Aug.C112_find`
* `Jdftx.Aug.C112_range`
* `Jdftx.Aug.C112_density`
* `Jdftx.Aug.C112_hermitian`
* `Jdftx.Aug.C112_energy`
* `Jdftx.Aug.C112_derivative`
* `Jdftx.Aug.C112_gradient`
* `Jdftx.Param.C113_command`
* `Jdftx.Param.C113_words`
* `Jdftx.Param.C113_numbers_partial`
* `Jdftx.Param.C113_range`
* `Jdftx.Param.C113_value`
* `Jdftx.Param.C113_rewind`
* `Jdftx.Param.C113_split_fails`
* `Jdftx.Param.C113_caught_fails`
* `Jdftx.Param.C113_rewind_fails`
* `Jdftx.Ener.C114_value`
* `Jdftx.Ener.C114_total`
* `Jdftx.Ener.C114_printed_sum`
* `Jdftx.Ener.C114_printed_value`
* `Jdftx.Ener.C114_printed_all`
* `Jdftx.Ener.C114_printed_once`
* `Jdftx.Ener.C114_printout`
* `Jdftx.Ener.C114_last`
* `Jdftx.Ener.C114_name_absent`
* `Jdftx.Cols.C115_read`
* `Jdftx.Cols.C115_get`
* `Jdftx.Cols.C115_set_get`
* `Jdftx.Cols.C115_sub`
* `Jdftx.Cols.C115_range`
* `Jdftx.Moment.C116_lines`
* `Jdftx.Moment.C116_translate`
* `Jdftx.Moment.C116_neutral`
* `Jdftx.Moment.C116_interior`
* `Jdftx.Moment.C116_periodic`
* `Jdftx.Moment.C116_reduce_exists`
* `Jdftx.Core.C117_pairs`
* `Jdftx.Core.C117_orthogonal_partial`
* `Jdftx.Core.C117_found`
* `Jdftx.Core.C117_ends`
* `Jdftx.Core.C117_skewed_fails`
* `Jdftx.Core.C117_self_fails`
* `Jdftx.Core.C117_local_fails`
* `Jdftx.Mole.C118_charge`
* `Jdftx.Mole.C118_check`
* `Jdftx.Mole.C118_one_site`
* `Jdftx.Mole.C118_dipole`
* `Jdftx.Mole.C118_moved_moment`
* `Jdftx.Mole.C118_moved`
* `Jdftx.Mole.C118_bonds`
* `Jdftx.RadW.C119_nodes`
* `Jdftx.RadW.C119_pivots`
* `Jdftx.RadW.C119_exact_partial`
* `Jdftx.RadW.C119_linear`
* `Jdftx.RadW.C119_last_ignored`
* `Jdftx.RadW.C119_transform_fails`
* `Jdftx.Cmd.C12_same_section_partial`
* `Jdftx.Unfold.C120_listed`
* `Jdftx.Unfold.C120_covered`
* `Jdftx.Unfold.C120_written_partial`
* `Jdftx.Unfold.C120_small_basis_fails`
* `Jdftx.Blip.C121_sum`
* `Jdftx.Blip.C121_covers`
* `Jdftx.Blip.C121_periodic`
* `Jdftx.Blip.C121_constant`
* `Jdftx.Blip.C121_single_fails`
* `Jdftx.Input.C13_terminates_partial`
* `Jdftx.Input.C13_result_partial`
* `Jdftx.Input.C13_violation`
* `Jdftx.Input.C13_violation_set`
* `Jdftx.Input.C14_violation`
* `Jdftx.Input.C15_file`
* `Jdftx.Input.C16_terminates`
* `Jdftx.Input.C16_expansion`
* `Jdftx.Input.C16_cycle`
* `Jdftx.Input.C16_case_collision`
* `Jdftx.Cite.C17_pairs_partial`
* `Jdftx.Cite.C17_reason_contiguous_partial`
* `Jdftx.Cite.C17_single_reason_partial`
* `Jdftx.EnumMap.C18_roundtrip`
* `Jdftx.EnumMap.C18_tables`
* `Jdftx.Box.C19_real`
* `Jdftx.Box.C19_full`
* `Jdftx.Box.C19_half`
* `Jdftx.Box.C19_mirror`
* `Jdftx.Box.C20_real_loop`
* `Jdftx.Box.C20_half_loop`
* `Jdftx.Box.C20_full_loop_partial`
* `Jdftx.Box.C20_threaded`
* `Jdftx.Box.C20_full_threaded_partial`
* `Jdftx.Box.C21_changeGrid`
* `Jdftx.Box.C21_round_trip`
* `Jdftx.Box.C21_changeGrid_full`
* `Jdftx.Box.C21_round_trip_full`
* `Jdftx.Box.C21_nyquist_not_real`
* `Jdftx.Box.C22_complex`
* `Jdftx.Box.C22_round_trip`
* `Jdftx.Box.C22_decompose`
* `Jdftx.Box.C23_dot_partial`
* `Jdftx.Box.C23_nrm2_partial`
* `Jdftx.Box.C23_sum_partial`
* `Jdftx.Box.C23_violation`
* `Jdftx.ExCorr.C23_real_partial`
* `Jdftx.Grid.C24_valid_partial`
* `Jdftx.Grid.C24_check_passes`
* `Jdftx.Grid.C24_cutoff`
* `Jdftx.Grid.C24_no_cutoff_diverges`
* `Jdftx.Grid.C25_exact_partial`
* `Jdftx.Lat.C26_reduceMatrix`
* `Jdftx.Lat.C26_norm`
* `Jdftx.Lat.C27_symmetries`
* `Jdftx.Lat.C27_box`
* `Jdftx.Lat.C27_characterisation`
* `Jdftx.Lat.C27_symmetries_partial`
* `Jdftx.Lat.C27_group`
* `Jdftx.Lat.C27_closure_violation`
* `Jdftx.WS.C28_reduce`
* `Jdftx.WS.C28_mesh`
* `Jdftx.WS.C29_violation`
* `Jdftx.PL.C30_lookup`
* `Jdftx.PL.C30_incremental`
* `Jdftx.PL.C30_coincide`
* `Jdftx.Kpts.C31_fold`
* `Jdftx.Kpts.C31_total_weight`
* `Jdftx.RK.C32_reduce_partial`
* `Jdftx.RK.C32_processes`
* `Jdftx.RK.C32_mesh_decisive`
* `Jdftx.RK.C32_duplicate_violation`
* `Jdftx.Sym.C33_average_partial`
* `Jdftx.Sym.C33_invariant_partial`
* `Jdftx.Sym.C33_fixed_partial`
* `Jdftx.Sym.C33_projection_partial`
* `Jdftx.Sym.C33_grid_check`
* `Jdftx.Sym.C33_nyquist_violation`
* `Jdftx.Sym.C33_forces`
* `Jdftx.Sym.C33_tensor`
* `Jdftx.M3.C34_compose`
* `Jdftx.M3.C34_compose_recip`
* `Jdftx.M3.C34_assoc`
* `Jdftx.M3.C34_unit`
* `Jdftx.M3.C34_inverse`
* `Jdftx.M3.C34_inverse_applies`
* `Jdftx.M3.C34_inverse_det`
* `Jdftx.M3.C34_needs_unimodular`
* `Jdftx.Basis.C35_basis`
* `Jdftx.Basis.C35_vector`
* `Jdftx.Basis.C35_index`
* `Jdftx.Basis.C35_fits`
* `Jdftx.Basis.C35_head`
* `Jdftx.Min.C36_quad_partial`
* `Jdftx.Min.C36_quad_violation`
* `Jdftx.Min.C37_cubic_forward_partial`
* `Jdftx.Min.C37_quad_partial`
* `Jdftx.Min.C37_violation`
* `Jdftx.Min.C37_cubic_violation`
* `Jdftx.Min.C37_lbfgs_no_history`
* `Jdftx.Conv.C38_ediff`
* `Jdftx.Conv.C38_ediff_window`
* `Jdftx.Conv.C38_ediff_zero`
* `Jdftx.Lin.C39_solve`
* `Jdftx.Lin.C39_solve_trace`
* `Jdftx.Lin.C39_cg`
* `Jdftx.Pulay.C40_overlap_partial`
* `Jdftx.Pulay.C40_recent`
* `Jdftx.Pulay.C40_coefficients`
* `Jdftx.Pulay.C40_fixed_point`
* `Jdftx.Pulay.C40_violation`
* `Jdftx.Pulay.C40_no_history`
* `Jdftx.Spline.C42_spline`
* `Jdftx.Spline.C42_gradient`
* `Jdftx.Spline.C42_limits`
* `Jdftx.Spline.C42_bounds`
* `Jdftx.Smear.C43_mu`
* `Jdftx.Smear.C43_field`
* `Jdftx.Smear.C43_nested_partial`
* `Jdftx.Fill.C44_fill`
* `Jdftx.Fill.C44_adapt`
* `Jdftx.Fill.C44_setup`
* `Jdftx.Fill.C44_total`
* `Jdftx.Fill.C44_accepts`
* `Jdftx.Fill.C44_spin_violation`
* `Jdftx.Tetra.C45_tetrahedron`
* `Jdftx.Tetra.C45_ends`
* `Jdftx.Tetra.C45_dos`
* `Jdftx.Tetra.C45_dos_connected`
* `Jdftx.Tetra.C45_mesh`
* `Jdftx.Tetra.C45_weld`
* `Jdftx.Tetra.C45_weld_apart`
* `Jdftx.Tetra.C45_weld_sum`
* `Jdftx.Tetra.C45_volumes`
* `Jdftx.Tetra.C45_tiling`
* `Jdftx.Tetra.C45_vertices`
* `Jdftx.Tetra.C45_flat_violation`
* `Jdftx.Tetra.C45_gap_violation`
* `Jdftx.Tetra.C45_outside_violation`
* `Jdftx.Dyn.C46_reversible`
* `Jdftx.Dyn.C46_reversible_exact`
* `Jdftx.Dyn.C46_velocity_sum`
* `Jdftx.Dyn.C46_momentum_partial`
* `Jdftx.Dyn.C46_momentum_violation`
* `Jdftx.Ion.C46_reversible_constrained`
* `Jdftx.Dyn.C47_mean`
* `Jdftx.FileIO.C48_write`
* `Jdftx.FileIO.C48_transfer`
* `Jdftx.FileIO.C48_roundtrip`
* `Jdftx.Kmap.C49_roundtrip`
* `Jdftx.Kmap.C49_order`
* `Jdftx.Kmap.C49_valid_lt_unset`
* `Jdftx.Mtx.C50_element`
* `Jdftx.Mtx.C50_get`
* `Jdftx.Mtx.C50_get_rejects`
* `Jdftx.Mtx.C50_set_partial`
* `Jdftx.Mtx.C50_accum_partial`
* `Jdftx.Mtx.C50_roundtrip_partial`
* `Jdftx.Mtx.C50_put_rejects_partial`
* `Jdftx.Mtx.C50_column_violation`
* `Jdftx.Mtx.C51_right`
* `Jdftx.Mtx.C51_left_partial`
* `Jdftx.Mtx.C52_zgemm_partial`
* `Jdftx.Mtx.C52_empty_violation`
* `Jdftx.Box.C53_gradient`
* `Jdftx.Box.C53_tensor`
* `Jdftx.Box.C53_gradient_real`
* `Jdftx.Dump.C54_expand_partial`
* `Jdftx.Dump.C54_self_reference`
* `Jdftx.Dump.C55_schedule`
* `Jdftx.Dump.C55_count`
* `Jdftx.Dump.C55_contents`
* `Jdftx.Dump.C55_interrupted`
* `Jdftx.Euler.C56_euler`
* `Jdftx.Euler.C56_rotation`
* `Jdftx.Euler.C56_axis`
* `Jdftx.Euler.C56_polar_violation`
* `Jdftx.CellMap.C57_taper`
* `Jdftx.CellMap.C57_sum_partial`
* `Jdftx.CellMap.C57_complete_partial`
* `Jdftx.CellMap.C57_transform_partial`
* `Jdftx.CellMap.C57_threshold_violation`
* `Jdftx.SField.C58_programs_partial`
* `Jdftx.SField.C58_start`
* `Jdftx.SField.C58_real`
* `Jdftx.SField.C58_complex`
* `Jdftx.SField.C58_half`
* `Jdftx.SField.C58_shared_violation`
* `Jdftx.ColT.C59_index`
* `Jdftx.ColT.C59_checked`
* `Jdftx.ColT.C59_runs`
* `Jdftx.ColT.C59_wavefunction`
* `Jdftx.ColT.C59_roundtrip`
* `Jdftx.ColT.C59_wrap_violation`
* `Jdftx.Mtx.C60_up_to_sign_partial`
* `Jdftx.Mtx.C60_sign_violation`
* `Jdftx.Ion.C61_atoms`
* `Jdftx.Ion.C61_dimension`
* `Jdftx.Ion.C61_groups_partial`
* `Jdftx.Ion.C61_mean`
* `Jdftx.Ion.C61_keeps`
* `Jdftx.Ion.C61_idempotent`
* `Jdftx.Ion.C61_groups_violation`
* `Jdftx.Ion.C61_symmetry_violation`
* `Jdftx.WS.C62_boundaryDistance`
* `Jdftx.WS.C62_inRadius`
* `Jdftx.Mtx.C63_product`
* `Jdftx.Mtx.C63_block_product`
* `Jdftx.Mtx.C64_convert`
* `Jdftx.Mtx.C64_dagger`
* `Jdftx.Mtx.C64_trace`
* `Jdftx.Mtx.C64_diag`
* `Jdftx.Mtx.C64_diagDot`
* `Jdftx.Mtx.C64_norm_partial`
* `Jdftx.Mtx.C64_norm_violation`
* `Jdftx.Smear.C65_derivative`
* `Jdftx.Smear.C65_entropy`
* `Jdftx.Smear.C65_grand`
* `Jdftx.Smear.C65_bounds`
* `Jdftx.Euler.C66_spinor`
* `Jdftx.Euler.C66_spin`
* `Jdftx.Min.C67_two_loops_partial`
* `Jdftx.Min.C67_secant_partial`
* `Jdftx.Min.C67_descent_partial`
* `Jdftx.Min.C67_precond_violation`
* `Jdftx.LatMin.C68_refuse`
* `Jdftx.LatMin.C68_history`
* `Jdftx.LatMin.C68_constrain`
* `Jdftx.LatMin.C68_undo_violation`
* `Jdftx.Embed.C69_construct_partial`
* `Jdftx.Embed.C69_expand`
* `Jdftx.Embed.C69_adjoint`
* `Jdftx.Embed.C69_hermitian`
* `Jdftx.Embed.C69_odd_violation`
* `Jdftx.Ewald.C70_periodic_forces`
* `Jdftx.Ewald.C70_periodic_stress`
* `Jdftx.Ewald.C70_periodic_momentum`
* `Jdftx.Ewald.C70_periodic_images`
* `Jdftx.Ewald.C70_slab_forces`
* `Jdftx.Ewald.C70_slab_stress`
* `Jdftx.Ewald.C70_slab_momentum`
* `Jdftx.Ewald.C70_isolated_forces_partial`
* `Jdftx.Ewald.C70_isolated_stress_partial`
* `Jdftx.Ewald.C70_isolated_momentum`
* `Jdftx.D2.C71_pair`
* `Jdftx.D2.C71_energy`
* `Jdftx.D2.C71_processes`
* `Jdftx.D2.C71_forces`
* `Jdftx.D2.C71_stress`
* `Jdftx.D2.C71_momentum`
* `Jdftx.D2.C71_images_violation`
* `Jdftx.LDA.C72_energy`
* `Jdftx.LDA.C72_spin_energy`
* `Jdftx.LDA.C72_potential`
* `Jdftx.LDA.C72_spin_potential`
* `Jdftx.LDA.C72_unpolarised`
* `Jdftx.LDA.C72_spin_flip`
* `Jdftx.LDA.C72_ferromagnetic`
* `Jdftx.LDA.C72_pz_jump_violation`
* `Jdftx.SpinDiag.C73_rotation`
* `Jdftx.SpinDiag.C73_trace`
* `Jdftx.SpinDiag.C73_eigenvalues`
* `Jdftx.SpinDiag.C73_gradient`
* `Jdftx.SpinDiag.C73_gradient_self`
* `Jdftx.ExCorr.C74_processes`
* `Jdftx.ExCorr.C74_potential_partial`
* `Jdftx.ExCorr.C74_noncollinear_lda`
* `Jdftx.ExCorr.C74_noncollinear_violation`
* `Jdftx.States.C75_sums`
* `Jdftx.States.C75_spin_copies`
* `Jdftx.States.C75_offset`
* `Jdftx.States.C75_mesh`
* `Jdftx.States.C75_electrons`
* `Jdftx.Cavity.C76_range`
* `Jdftx.Cavity.C76_gradient_partial`
* `Jdftx.Cavity.C76_negative_violation`
* `Jdftx.Cavity.C76_sccs_gradient`
* `Jdftx.Cavity.C76_sccs_range`
* `Jdftx.Cavity.C77_range`
* `Jdftx.Cavity.C77_gradient_partial`
* `Jdftx.Cavity.C77_expand_partial`
* `Jdftx.ExCorr.C78_real`
* `Jdftx.ExCorr.C78_reciprocal`
* `Jdftx.ExCorr.C78_adjoint`
* `Jdftx.ExCorr.C78_parseval`
* `Jdftx.Cavity.C79_range`
* `Jdftx.Cavity.C79_images`
* `Jdftx.Cavity.C79_translations`
* `Jdftx.Cavity.C79_radii`
* `Jdftx.Cavity.C79_gradient_partial`
* `Jdftx.NPCM.C80_limit`
* `Jdftx.NPCM.C80_packing`
* `Jdftx.NPCM.C80_unique`
* `Jdftx.NPCM.C80_bulk`
* `Jdftx.NPCM.C80_charge`
* `Jdftx.NPCM.C80_positive`
* `Jdftx.NPCM.C80_correlation`
* `Jdftx.NPCM.C80_field`
* `Jdftx.NPCM.C80_polarisation`
* `Jdftx.NPCM.C80_zero_field`
* `Jdftx.NPCM.C80_infinite_field`
* `Jdftx.NPCM.C80_linear`
* `Jdftx.NPCM.C80_screening`
* `Jdftx.NPCM.C80_dielectric`
* `Jdftx.NPCM.C80_tables`
* `Jdftx.NPCM.C80_linear_dielectric_violation`
* `Jdftx.NPCM.C80_linear_screening_violation`
* `Jdftx.PCM.C81_symmetric_partial`
* `Jdftx.PCM.C81_positive_partial`
* `Jdftx.PCM.C81_preconditioner_partial`
* `Jdftx.PCM.C81_gradients_partial`
* `Jdftx.PCM.C81_solved_partial`
* `Jdftx.PCM.C81_variational_partial`
* `Jdftx.PCM.C82_compute_partial`
* `Jdftx.PCM.C82_gradients_partial`
* `Jdftx.PCM.C82_energy_partial`
* `Jdftx.PCM.C82_solved_partial`
* `Jdftx.PCM.C82_tables`
* `Jdftx.Lin.C83_optimal`
* `Jdftx.Lin.C83_converges`
* `Jdftx.Lin.C83_count`
* `Jdftx.Lin.C83_cg_optimal`
* `Jdftx.Lin.C83_cg_converges`
* `Jdftx.Lin.C83_cg_stops`
* `Jdftx.Lin.C83_best_partial`
* `Jdftx.Lin.C83_best_violation`
* `Jdftx.MinRes.C84_reported`
* `Jdftx.MinRes.C84_minimal`
* `Jdftx.MinRes.C84_progress`
* `Jdftx.MinRes.C84_ends`
* `Jdftx.MinRes.C84_converges_partial`
* `Jdftx.MinRes.C84_start_violation`
* `Jdftx.ElecMin.C85_slope_charge_partial`
* `Jdftx.ElecMin.C85_slope_potential_partial`
* `Jdftx.ElecMin.C85_slope_fixed_partial`
* `Jdftx.ElecMin.C85_start`
* `Jdftx.ElecMin.C85_steps`
* `Jdftx.ElecMin.C85_line`
* `Jdftx.ElecMin.C85_constrain`
* `Jdftx.ElecMin.C85_gradient`
* `Jdftx.ElecMin.C85_fixed_weights_fails`
* `Jdftx.ElecMin.C85_field_potential_fails`
* `Jdftx.ElecMin.C85_moment_potential_fails`
* `Jdftx.ElecMin.C85_scalar_line_fails`
* `Jdftx.ElecMin.C85_stale_gradient_fails`
* `Jdftx.MatFunc.C86_choice`
* `Jdftx.MatFunc.C86_exit`
* `Jdftx.MatFunc.C86_powers`
* `Jdftx.MatFunc.C86_semidefinite`
* `Jdftx.MatFunc.C86_positive_part`
* `Jdftx.MatFunc.C86_pseudoinverse`
* `Jdftx.MatFunc.C86_closest`
* `Jdftx.MatFunc.C86_rotations_partial`
* `Jdftx.MatFunc.C86_lost_flag_fails`
* `Jdftx.MatFunc.C86_cis`
* `Jdftx.MatFunc.C86_cisInv`
* `Jdftx.MatFunc.C86_sqrt_grad`
* `Jdftx.MatFunc.C86_cis_grad`
* `Jdftx.MatFunc.C86_cis_grad_literal_fails`
* `Jdftx.MatFunc.C86_exchange`
* `Jdftx.GGA.C87_potential`
* `Jdftx.GGA.C87_spin_potential`
* `Jdftx.GGA.C87_energy`
* `Jdftx.GGA.C87_spin_energy`
* `Jdftx.GGA.C87_uniform`
* `Jdftx.GGA.C87_unpolarised`
* `Jdftx.GGA.C87_spin_flip`
* `Jdftx.GGA.C87_exchange_bound`
* `Jdftx.GGA.C87_correlation_bound`
* `Jdftx.GGA.C87_grid`
* `Jdftx.GGA.C87_spin_grid`
* `Jdftx.GGA.C87_integrals`
* `Jdftx.GGA.C87_screened_energy_partial`
* `Jdftx.GGA.C87_screened_spin_energy_partial`
* `Jdftx.GGA.C87_screened_violation`
* `Jdftx.GGA.C87_screened_limit_violation`
* `Jdftx.GGA.C87_lb94_violation`
* `Jdftx.GGA.C87_screened_hole_violation`
* `Jdftx.GGA.C87_screened_uniform_violation`
* `Jdftx.GGA.C87_screened_range_violation`
* `Jdftx.Ylm.C88_definition`
* `Jdftx.Ylm.C88_homogeneous`
* `Jdftx.Ylm.C88_parity`
* `Jdftx.Ylm.C88_laplace`
* `Jdftx.Ylm.C88_gradient`
* `Jdftx.Ylm.C88_product`
* `Jdftx.Ylm.C88_selection`
* `Jdftx.Ylm.C88_bessel`
* `Jdftx.Ylm.C88_bessel_zero`
* `Jdftx.Stat.C89_energy`
* `Jdftx.Stat.C89_thermostat_energy`
* `Jdftx.Stat.C89_barostat_energy`
* `Jdftx.Stat.C89_pressure_energy`
* `Jdftx.Stat.C89_defined`
* `Jdftx.Stat.C89_berendsen`
* `Jdftx.Stat.C89_berendsen_direction`
* `Jdftx.Stat.C89_initial`
* `Jdftx.Stat.C89_workless`
* `Jdftx.Stat.C89_energy_drift`
* `Jdftx.Stat.C89_degrees`
* `Jdftx.Stat.C89_canonical`
* `Jdftx.Stat.C89_stationary`
* `Jdftx.Stat.C89_lattice_workless`
* `Jdftx.Stat.C89_chain_violation`
* `Jdftx.Stat.C89_energy_violation`
* `Jdftx.Stat.C89_degrees_violation`
* `Jdftx.Stat.C89_external_violation`
* `Jdftx.Stat.C89_fixed_violation`
* `Jdftx.FindGroup.C90_group`
* `Jdftx.FindGroup.C90_atoms`
* `Jdftx.FindGroup.C90_empty`
* `Jdftx.FindGroup.C90_sound`
* `Jdftx.FindGroup.C90_maps`
* `Jdftx.FindGroup.C90_sort`
* `Jdftx.FindGroup.C90_moments`
* `Jdftx.FindGroup.C90_constraints`
* `Jdftx.FindGroup.C90_field_ramp`
* `Jdftx.FindGroup.C90_unused_violation`
* `Jdftx.FindGroup.C90_perturbation_violation`
* `Jdftx.FindGroup.C90_field_violation`
* `Jdftx.FindGroup.C90_hyperplane_violation`
* `Jdftx.CoulK.C91_periodic`
* `Jdftx.CoulK.C91_sphere`
* `Jdftx.CoulK.C91_slab`
* `Jdftx.CoulK.C91_ion`
* `Jdftx.CoulK.planePotential_ok`
* `Jdftx.CoulK.C91_stress_periodic`
* `Jdftx.CoulK.C91_stress_sphere_partial`
* `Jdftx.CoulK.C91_stress_slab`
* `Jdftx.CoulK.C91_stress_ion`
* `Jdftx.CoulK.C91_sphere_violation`
* `Jdftx.CoulK.C92_screened`
* `Jdftx.CoulK.C92_sphere`
* `Jdftx.CoulK.C92_sphere_screened`
* `Jdftx.CoulK.C92_slab`
* `Jdftx.CoulK.C92_stress_periodic`
* `Jdftx.CoulK.C92_stress_screened`
* `Jdftx.CoulK.C92_stress_sphere`
* `Jdftx.CoulK.C92_stress_slab`
* `Jdftx.CoulK.C92_probe`
* `Jdftx.CoulK.C92_axis_partial`
* `Jdftx.CoulK.C92_real_index`
* `Jdftx.CoulK.C92_extract`
* `Jdftx.CoulK.C92_trans_partial`
* `Jdftx.CoulK.C92_offset_violation`
* `Jdftx.CoulK.C92_fixed_violation`
* `Jdftx.CoulK.C92_slab_screened_violation`
* `Jdftx.CoulK.C92_trans_violation`
* `Jdftx.Fluid.C93_tensor`
* `Jdftx.Fluid.C93_white_bear`
* `Jdftx.Fluid.C93_mixture_gradient_partial`
* `Jdftx.Fluid.C93_uniform`
* `Jdftx.Fluid.C93_uniform_gradient_partial`
* `Jdftx.Fluid.C93_carnahan_starling`
* `Jdftx.Fluid.C93_eos_partial`
* `Jdftx.Fluid.C93_eos_gradient`
* `Jdftx.Fluid.C93_eos_uniform`
* `Jdftx.Fluid.C93_kernel_norm`
* `Jdftx.Fluid.C93_eos_total`
* `Jdftx.Fluid.C93_self_partial`
* `Jdftx.Fluid.C93_mix_partial`
* `Jdftx.Fluid.C93_fitted_gradient_partial`
* `Jdftx.Fluid.C93_fitted_uniform_fails`
* `Jdftx.Fluid.C93_fitted_accumulate_fails`
* `Jdftx.Fluid.C94_transpose`
* `Jdftx.Fluid.C94_conserve`
* `Jdftx.Fluid.C94_uniform`
* `Jdftx.Fluid.C94_exact`
* `Jdftx.Fluid.C94_constant`
* `Jdftx.Fluid.C94_linear`
* `Jdftx.Fluid.C94_fourier`
* `Jdftx.Fluid.C94_bounds`
* `Jdftx.Fluid.C94_in_range`
* `Jdftx.Fluid.C94_direction_fails`
* `Jdftx.Fluid.C95_gradient_partial`
* `Jdftx.Fluid.C95_ions`
* `Jdftx.Fluid.C95_evaluate`
* `Jdftx.Fluid.C95_gas_mono`
* `Jdftx.Fluid.C95_gas_orient_partial`
* `Jdftx.Fluid.C95_orient_nonneg`
* `Jdftx.Fluid.C95_term_coulomb`
* `Jdftx.Fluid.C95_term_spheres`
* `Jdftx.Fluid.C95_term_eos`
* `Jdftx.Fluid.C95_term_pair`
* `Jdftx.Fluid.C95_number`
* `Jdftx.Fluid.C95_die`
* `Jdftx.Fluid.C95_neutral_exists_partial`
* `Jdftx.Fluid.C95_neutral_partial`
* `Jdftx.Fluid.C95_newton_fails`
* `Jdftx.Fluid.C95_one_sign_fails`
* `Jdftx.Fluid.C95_dipole_fails`
* `Jdftx.Fluid.C96_crossing`
* `Jdftx.Fluid.C96_search`
* `Jdftx.Fluid.C96_terminates`
* `Jdftx.Fluid.C96_negative_fails`
* `Jdftx.Fluid.C96_potential`
* `Jdftx.Fluid.C96_pressure`
* `Jdftx.Fluid.C96_uniform_terms_partial`
* `Jdftx.Fluid.C96_carnahan_starling`
* `Jdftx.Fluid.C96_hard_spheres`
* `Jdftx.Fluid.C96_hard_spheres_compressed`
* `Jdftx.Fluid.C96_bulk`
* `Jdftx.Fluid.C96_gas`
* `Jdftx.Fluid.C96_terms`
* `Jdftx.EXX.C97_partition`
* `Jdftx.EXX.C97_balance`
* `Jdftx.EXX.C97_occupations_partial`
* `Jdftx.EXX.C97_chunk_fails`
* `Jdftx.EXX.C97_energy`
* `Jdftx.EXX.C97_processes`
* `Jdftx.EXX.C97_sign`
* `Jdftx.EXX.C97_gradient`
* `Jdftx.EXX.C97_search_partial`
* `Jdftx.EXX.C97_compressed`
* `Jdftx.Phonon.C98_cells`
* `Jdftx.Phonon.C98_refine`
* `Jdftx.Phonon.C98_map`
* `Jdftx.Phonon.C98_remap`
* `Jdftx.Phonon.C98_herm_check`
* `Jdftx.Phonon.C98_gamma_partial`
* `Jdftx.Phonon.C98_gamma_solvable`
* `Jdftx.Phonon.C98_axes_fails`
* `Jdftx.Phonon.C98_single_fails`
* `Jdftx.Phonon.C98_acoustic`
* `Jdftx.Phonon.C98_free_energy`
* `Jdftx.Phonon.C98_thermodynamics`
* `Jdftx.Phonon.C98_quadrature`
* `Jdftx.Phonon.C98_gauss`
* `Jdftx.Phonon.C98_isolated_fails`
* `Jdftx.PhonPert.C99_directions`
* `Jdftx.PhonPert.C99_exact_partial`
* `Jdftx.PhonPert.C99_finite_difference_partial`
* `Jdftx.PhonPert.C99_number`
* `Jdftx.PhonPert.C99_manual_fails`

## propext, Quot.sound

* `Jdftx.TaskDiv.C01_single`
* `Jdftx.Thr.C02_zero_jobs_violation`
* `Jdftx.Thr.C04_suspension_partial`
* `Jdftx.Thr.C04_counts`
* `Jdftx.FileIO.C06_oversized_item`
* `Jdftx.Coll.C08_read_partial`
* `Jdftx.Cmd.C11_reorder`
* `Jdftx.Cmd.C11_swap`
* `Jdftx.Param.C113_space_needed`
* `Jdftx.Ener.C114_name`
* `Jdftx.Input.C14_broadcast_partial`
* `Jdftx.Input.C15_line`
* `Jdftx.EnumMap.C18_reject`
* `Jdftx.EnumMap.C18_missing_ub`
* `Jdftx.Box.C19_periodic`
* `Jdftx.Box.C20_full_loop_empty`
* `Jdftx.Box.C20_violation`
* `Jdftx.Kpts.C31_rejects`
* `Jdftx.Min.C36_cubic`
* `Jdftx.Min.C37_minimize_partial`
* `Jdftx.Min.C37_lbfgs_partial`
* `Jdftx.Min.C37_cubic_promise`
* `Jdftx.Min.C37_cubic_partial`
* `Jdftx.Conv.C38_norm`
* `Jdftx.Pulay.C40_reset`
* `Jdftx.Pulay.C40_load`
* `Jdftx.Min.C41_restores`
* `Jdftx.Min.C41_visits`
* `Jdftx.Dyn.C47_zero_step`
* `Jdftx.Kmap.C49_negative_index`
* `Jdftx.Dump.C55_accepted`
* `Jdftx.Dump.C55_not_due`

## propext

* `Jdftx.Coll.C08_offset_overflow`
* `Jdftx.Param.C113_remainder`
* `Jdftx.Cmd.C12_violation`
* `Jdftx.EnumMap.C18_tables_distinct`
* `Jdftx.Grid.C25_zero_diverges`
* `Jdftx.WS.C29_neighbours_partial`
* `Jdftx.FileIO.C48_short`
* `Jdftx.Mtx.C51_tall_violation`
* `Jdftx.Mtx.C51_wide_violation`

## none

* `Jdftx.Thr.C04_violation`
* `Jdftx.Thr.C04_violation_nested`
* `Jdftx.Cite.C17_violation`
* `Jdftx.Min.C36_relax`
* `Jdftx.Mtx.C51_rejects`
* `Jdftx.Mtx.C63_rejects`
