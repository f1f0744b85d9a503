# Axioms of the theorems

Output of `#print axioms` for every theorem of MANIFEST.json.

| theorem | axioms |
|---|---|
| Verif.Props.C01_refines_conjugate_map | propext, Classical.choice, Quot.sound |
| Verif.Props.C01_conjugate_symmetric | propext, Quot.sound |
| Verif.Props.C01_last_write_wins | propext, Classical.choice, Quot.sound |
| Verif.Props.C01_remove_status | propext, Quot.sound |
| Verif.Props.C01_trace | propext, Classical.choice, Quot.sound |
| Verif.Props.C02_export_exact | propext, Classical.choice, Quot.sound |
| Verif.Props.C02_no_conjugate_pair | propext, Classical.choice, Quot.sound |
| Verif.Props.C02_num_hop | propext, Quot.sound |
| Verif.Props.C03_remove_orbitals | propext, Classical.choice, Quot.sound |
| Verif.Props.C04_locked_cell_unchanged | propext, Classical.choice, Quot.sound |
| Verif.Props.C04_locked_history | propext, Classical.choice, Quot.sound |
| Verif.Props.C04_lock_takes_effect | propext |
| Verif.Props.C04_inter_hopping_lock_ignored | propext, Quot.sound |
| Verif.Props.C04_inter_hopping_add_partial | propext, Quot.sound |
| Verif.Props.C05_well_formed_partial | propext, Classical.choice, Quot.sound |
| Verif.Props.C05_remove_orbitals | propext, Classical.choice, Quot.sound |
| Verif.Props.C05_add_hopping | propext, Quot.sound |
| Verif.Props.C05_negative_index_breaks | propext, Classical.choice, Quot.sound |
| Verif.Props.C05_out_of_range_breaks | propext, Classical.choice, Quot.sound |
| Verif.Props.C06_apply_pbc | propext, Classical.choice, Quot.sound |
| Verif.Props.C06_idempotent_commute | propext, Classical.choice, Quot.sound |
| Verif.Props.C07_trim | propext, Classical.choice, Quot.sound |
| Verif.Props.C07_neighbours_finite | propext, Classical.choice, Quot.sound |
| Verif.Props.C08_arrays_fresh_partial | propext, Classical.choice, Quot.sound |
| Verif.Props.C08_force_sync_fresh | propext, Quot.sound |
| Verif.Props.C08_stale_array | propext, Classical.choice, Quot.sound |
| Verif.Props.C09_hermitian | propext, Classical.choice, Quot.sound |
| Verif.Props.C10_conventions_same_spectrum | propext, Classical.choice, Quot.sound |
| Verif.Props.C11_periodic | propext, Classical.choice, Quot.sound |
| Verif.Props.C12_fourier_sum | propext, Classical.choice, Quot.sound |
| Verif.Props.C12_order_independent | propext, Classical.choice, Quot.sound |
| Verif.Props.C13_dense_eq_csr | propext, Classical.choice, Quot.sound |
| Verif.Props.C13_sync_gives_fresh | propext, Classical.choice, Quot.sound |
| Verif.Props.C14_bijection | propext, Classical.choice, Quot.sound |
| Verif.Props.C14_inverse | propext, Classical.choice, Quot.sound |
| Verif.Props.C14_vacancy | propext, Classical.choice, Quot.sound |
| Verif.Props.C14_monotone | propext, Classical.choice, Quot.sound |
| Verif.Props.C14_objects | propext, Classical.choice, Quot.sound |
| Verif.Props.C15_bisection_eq_linear | propext, Classical.choice, Quot.sound |
| Verif.Props.C15_value | propext, Classical.choice, Quot.sound |
| Verif.Props.C15_sorted | propext, Classical.choice, Quot.sound |
| Verif.Props.C16_periodic | propext, Classical.choice, Quot.sound |
| Verif.Props.C16_open | propext, Classical.choice, Quot.sound |
| Verif.Props.C17_fast_eq_general | propext, Classical.choice, Quot.sound |
| Verif.Props.C18_terms | propext, Classical.choice, Quot.sound |
| Verif.Props.C18_buffer | propext, Classical.choice, Quot.sound |
| Verif.Props.C18_objects | propext, Classical.choice, Quot.sound |
| Verif.Props.C19_no_double_counting | propext, Classical.choice, Quot.sound |
| Verif.Props.C19_objects | propext, Classical.choice, Quot.sound |
| Verif.Props.C19_size_needed | propext, Classical.choice, Quot.sound |
| Verif.Props.C20_displacement | propext, Classical.choice, Quot.sound |
| Verif.Props.C20_objects | propext, Classical.choice, Quot.sound |
| Verif.Props.C21_modifier_partial | propext, Classical.choice, Quot.sound |
| Verif.Props.C21_zero_cell_modifier | propext, Classical.choice, Quot.sound |
| Verif.Props.C21_repeated_pair | propext, Classical.choice, Quot.sound |
| Verif.Props.C21_float_indices | propext, Classical.choice, Quot.sound |
| Verif.Props.C21_bond_partial | propext, Classical.choice, Quot.sound |
| Verif.Props.C22_failure_locks_cell | propext, Classical.choice, Quot.sound |
| Verif.Props.C22_content_partial | propext, Quot.sound |
| Verif.Props.C23_overflow_iff_partial | propext, Classical.choice, Quot.sound |
| Verif.Props.C23_overflow | propext, Classical.choice, Quot.sound |
| Verif.Props.C24_trim_partial | propext, Classical.choice, Quot.sound |
| Verif.Props.C24_trim_raises | propext, Classical.choice, Quot.sound |
| Verif.C25_fast_valid | propext, Classical.choice, Quot.sound |
| Verif.C25_safe_valid | propext, Classical.choice, Quot.sound |
| Verif.C25_fast_matrix | propext, Classical.choice, Quot.sound |
| Verif.C25_safe_matrix | propext, Classical.choice, Quot.sound |
| Verif.C25_hermitian | propext, Classical.choice, Quot.sound |
| Verif.C25_fast_safe_agree | propext, Classical.choice, Quot.sound |
| Verif.C25_fast_layout | propext, Classical.choice, Quot.sound |
| Verif.C26_sort_col | propext, Classical.choice, Quot.sound |
| Verif.Props.C27_orbitals | propext, Classical.choice, Quot.sound |
| Verif.Props.C27_blocks_partial | propext, Classical.choice, Quot.sound |
| Verif.Props.C27_new | propext, Classical.choice, Quot.sound |
| Verif.Props.C27_inter_out_of_range | propext, Classical.choice, Quot.sound |
| Verif.Props.C28_rescale_partial | propext, Classical.choice, Quot.sound |
| Verif.Props.C28_recorded | propext, Quot.sound |
| Verif.Props.C28_forced_hop | propext, Classical.choice, Quot.sound |
| Verif.Props.C28_forced_eng | propext, Quot.sound |
| Verif.Props.C29_bound_partial | propext, Classical.choice, Quot.sound |
| Verif.Props.C29_negative_energies | propext, Classical.choice, Quot.sound |
| Verif.Props.C29_second_call | propext, Classical.choice, Quot.sound |
| Verif.Props.C30_modulus_additive | propext, Classical.choice, Quot.sound |
| Verif.Props.C30_flux_partial | propext, Classical.choice, Quot.sound |
| Verif.Props.C30_gauge2_no_flux | propext, Classical.choice, Quot.sound |
| Verif.Props.C30_square | propext, Classical.choice, Quot.sound |
| Verif.Props.C30_wrapping_walks | propext, Classical.choice, Quot.sound |
| Verif.Props.C30_objects | propext, Classical.choice, Quot.sound |
| Verif.Props.C31_additive | propext, Classical.choice, Quot.sound |
| Verif.Props.C31_objects | propext, Classical.choice, Quot.sound |
| Verif.Props.C31_bloch | propext, Classical.choice, Quot.sound |
| Verif.Props.C32_round_trip_partial | propext, Quot.sound |
| Verif.Props.C32_full | propext, Quot.sound |
| Verif.Props.C32_stale_files | propext, Quot.sound |
| Verif.Props.C33_extend | propext, Classical.choice, Quot.sound |
| Verif.Props.C33_errors | propext, Classical.choice, Quot.sound |
| Verif.Props.C33_same_crystal | propext, Classical.choice, Quot.sound |
| Verif.Props.C34_folding | propext, Classical.choice, Quot.sound |
| Verif.Props.C34_spectrum | propext, Classical.choice, Quot.sound |
| Verif.Props.C35_merge | propext, Classical.choice, Quot.sound |
| Verif.Props.C35_repeated | propext, Classical.choice, Quot.sound |
| Verif.Props.C35_consistent | propext, Classical.choice, Quot.sound |
| Verif.Props.C35_errors | propext, Classical.choice, Quot.sound |
| Verif.Props.C35_extended | propext, Classical.choice, Quot.sound |
| Verif.Props.C35_inputs_unchanged_partial | propext, Classical.choice, Quot.sound |
| Verif.Props.C35_inputs_modified | propext, Classical.choice, Quot.sound |
| Verif.C36_frac_cart_frac | propext, Classical.choice, Quot.sound |
| Verif.C36_cart_frac_cart | propext, Classical.choice, Quot.sound |
| Verif.C36_meaning | propext, Classical.choice, Quot.sound |
| Verif.C36_reciprocal | propext, Classical.choice, Quot.sound |
| Verif.C37_rigid_partial | propext, Classical.choice, Quot.sound |
| Verif.C37_pointwise | propext, Classical.choice, Quot.sound |
| Verif.C37_axis_fixed | propext, Classical.choice, Quot.sound |
| Verif.C37_compose | propext, Classical.choice, Quot.sound |
| Verif.C37_right_hand | propext, Classical.choice, Quot.sound |
| Verif.C37_integer_coordinates | propext, Classical.choice, Quot.sound |
| Verif.C38_lattice_vectors | propext, Classical.choice, Quot.sound |
| Verif.C38_admissible | propext, Classical.choice, Quot.sound |
| Verif.C38_volume_area | propext, Classical.choice, Quot.sound |
| Verif.C38_volume_value | propext, Classical.choice, Quot.sound |
| Verif.C39_kpath_partial | propext, Classical.choice, Quot.sound |
| Verif.C39_kpath_total | propext, Classical.choice, Quot.sound |
| Verif.C39_empty_segment | propext, Classical.choice, Quot.sound |
| Verif.C39_kmesh | propext, Classical.choice, Quot.sound |
| Verif.C39_kmesh_total | propext, Classical.choice, Quot.sound |
| Verif.Props.C40_tensor | propext, Classical.choice, Quot.sound |
| Verif.Props.C40_invariant | propext, Classical.choice, Quot.sound |
| Verif.Props.C40_rotation | propext, Classical.choice, Quot.sound |
| Verif.Props.C40_errors | propext, Classical.choice, Quot.sound |
| Verif.Props.C40_complex_parameters | propext, Classical.choice, Quot.sound |
| Verif.Props.C41_hermitian | propext, Classical.choice, Quot.sound |
| Verif.Props.C41_complex_parameters | propext, Classical.choice, Quot.sound |
| Verif.Props.C42_soc | propext, Classical.choice, Quot.sound |
| Verif.Props.C42_table2 | propext, Classical.choice, Quot.sound |
| Verif.Props.C42_table | propext, Classical.choice, Quot.sound |
| Verif.Props.C42_errors | propext, Classical.choice, Quot.sound |
| Verif.Props.C42_hermitian | propext, Classical.choice, Quot.sound |
| Verif.Props.C42_spectrum_p | propext, Classical.choice, Quot.sound |
| Verif.Props.C42_spectrum_d | propext, Classical.choice, Quot.sound |
| Verif.Props.C43_split_range | propext, Classical.choice, Quot.sound |
| Verif.Props.C43_split_list_partial | propext, Classical.choice, Quot.sound |
| Verif.Props.C43_split_list_refused | propext, Classical.choice, Quot.sound |
| Verif.Props.C43_dist_bound | propext, Classical.choice, Quot.sound |
| Verif.Props.C44_states | propext, Classical.choice, Quot.sound |
| Verif.Props.C44_states_local | propext, Classical.choice, Quot.sound |
| Verif.Props.C44_bands | propext, Classical.choice, Quot.sound |
| Verif.Props.C44_bands_sorted | propext, Classical.choice, Quot.sound |
| Verif.Props.C44_dos | propext, Classical.choice, Quot.sound |
| Verif.Props.C44_process_count | propext, Classical.choice, Quot.sound |
| Verif.Props.C45_rows | propext, Classical.choice, Quot.sound |
| Verif.Props.C45_partial | propext, Classical.choice, Quot.sound |
| Verif.Props.C45_wrong | propext, Classical.choice, Quot.sound |
| Verif.Props.C45_refused | propext, Classical.choice, Quot.sound |
| Verif.Props.C45_wrong_example | propext, Classical.choice, Quot.sound |
| Verif.Props.C46_samples | propext, Quot.sound |
| Verif.Props.C46_seeds_distinct | propext, Quot.sound |
| Verif.Props.C46_seed_zero | propext |
| Verif.Props.C46_average | propext, Classical.choice, Quot.sound |
| Verif.Props.C47_mesh | propext, Classical.choice, Quot.sound |
| Verif.Props.C47_target | propext, Classical.choice, Quot.sound |
| Verif.Props.C47_bijection | propext, Classical.choice, Quot.sound |
| Verif.Props.C48_frac | propext, Classical.choice, Quot.sound |
| Verif.Props.C48_frac_rounding_loop | propext, Classical.choice, Quot.sound |
| Verif.Props.C48_grid | propext, Quot.sound |
| Verif.Props.C49_agree | propext, Classical.choice, Quot.sound |
| Verif.Props.C50_velocity | propext, Classical.choice, Quot.sound |
| Verif.C51_loop | propext, Classical.choice, Quot.sound |
| Verif.C51_processes | propext, Classical.choice, Quot.sound |
| Verif.C51_unitary | propext, Classical.choice, Quot.sound |
| Verif.C51_gauge | propext, Classical.choice, Quot.sound |
| Verif.C51_sorted | propext, Classical.choice, Quot.sound |
| Verif.C51_phase | propext, Classical.choice, Quot.sound |
| Verif.C52_parity_partial | propext, Classical.choice, Quot.sound |
| Verif.C52_bands | propext, Classical.choice, Quot.sound |
| Verif.C52_total_partial | propext, Classical.choice, Quot.sound |
| Verif.C52_on_reference | propext, Classical.choice, Quot.sound |
| Verif.C53_values_partial | propext, Classical.choice, Quot.sound |
| Verif.C53_continuity | propext, Classical.choice, Quot.sound |
| Verif.C53_no_jumps | propext, Classical.choice, Quot.sound |
| Verif.C53_permutation_partial | propext, Classical.choice, Quot.sound |
| Verif.C53_duplicates | propext, Classical.choice, Quot.sound |
| Verif.Tbpm.C54_timestep_partial | propext, Classical.choice, Quot.sound |
| Verif.Tbpm.C54_short_series | propext, Classical.choice, Quot.sound |
| Verif.Tbpm.C55_fermi_partial | propext, Classical.choice, Quot.sound |
| Verif.Tbpm.C55_eigenstate | propext, Classical.choice, Quot.sound |
| Verif.Tbpm.C55_short_series | propext, Classical.choice, Quot.sound |
| Verif.Tbpm.C56_chain | propext, Classical.choice, Quot.sound |
| Verif.Tbpm.C57_green | propext, Classical.choice, Quot.sound |
| Verif.Tbpm.C57_exact | propext, Classical.choice, Quot.sound |
| Verif.Tbpm.C57_ldos | propext, Classical.choice, Quot.sound |
| Verif.Tbpm.C57_breakdown | propext, Classical.choice, Quot.sound |
| Verif.Tbpm.C57_single_site | propext, Classical.choice, Quot.sound |
| Verif.Tbpm.C58_snapshots | propext, Classical.choice, Quot.sound |
| Verif.Tbpm.C58_refused | propext, Classical.choice, Quot.sound |
| Verif.Tbpm.C58_accepted | propext, Classical.choice, Quot.sound |
| Verif.Tbpm.C59_series | propext, Classical.choice, Quot.sound |
| Verif.Tbpm.C59_error | propext, Classical.choice, Quot.sound |
| Verif.Tbpm.C60_check_partial | propext, Classical.choice, Quot.sound |
| Verif.Tbpm.C60_never | propext, Classical.choice, Quot.sound |
| Verif.Tbpm.C60_not_periodic | propext, Classical.choice, Quot.sound |
| Verif.Analysis.C61_transform | propext, Classical.choice, Quot.sound |
| Verif.Analysis.C61_integral | propext, Classical.choice, Quot.sound |
| Verif.Analysis.C61_refused | propext, Classical.choice, Quot.sound |
| Verif.Tbpm.C62_value | propext, Classical.choice, Quot.sound |
| Verif.Tbpm.C62_properties | propext, Classical.choice, Quot.sound |
| Verif.Fft.C63_dft | propext, Classical.choice, Quot.sound |
| Verif.Fft.C63_inverse | propext, Classical.choice, Quot.sound |
| Verif.Tbpm.C64_moments | propext, Classical.choice, Quot.sound |
| Verif.Tbpm.C64_operator | propext, Classical.choice, Quot.sound |
| Verif.Tbpm.C64_direction | propext, Classical.choice, Quot.sound |
| Verif.Analysis.C65_initial | propext, Classical.choice, Quot.sound |
| Verif.Props.C66_images_partial | propext, Classical.choice, Quot.sound |
| Verif.Props.C66_meeting_terms_lost | propext, Classical.choice, Quot.sound |
| Verif.Props.C66_missing_term | propext, Quot.sound |
| Verif.Props.C67_seeds_partial | propext, Classical.choice, Quot.sound |
| Verif.Props.C67_too_few | propext, Classical.choice, Quot.sound |
| Verif.Props.C67_never_more | propext, Classical.choice, Quot.sound |
| Verif.Props.C67_negative | propext, Classical.choice, Quot.sound |
| Verif.Props.C68_values | propext, Classical.choice, Quot.sound |
| Verif.Props.C68_bound | propext, Classical.choice, Quot.sound |
| Verif.Props.C68_odd_refused | propext, Classical.choice, Quot.sound |
| Verif.Props.C68_projection | propext, Classical.choice, Quot.sound |
| Verif.Tbpm.C69_product | propext, Classical.choice, Quot.sound |
| Verif.Tbpm.C69_update | propext, Classical.choice, Quot.sound |
| Verif.Tbpm.C69_aliasing | propext, Classical.choice, Quot.sound |
| Verif.Tbpm.C69_sample | propext, Classical.choice, Quot.sound |
| Verif.Tbpm.C69_sample_hermitian | propext, Classical.choice, Quot.sound |
| Verif.Props.C70_search | propext, Classical.choice, Quot.sound |
| Verif.Props.C70_opposite | propext, Classical.choice, Quot.sound |
| Verif.Props.C70_prim | propext, Classical.choice, Quot.sound |
| Verif.Props.C70_super | propext, Classical.choice, Quot.sound |
| Verif.Props.C71_tables_fresh_partial | propext, Classical.choice, Quot.sound |
| Verif.Props.C71_stale_tables | propext, Classical.choice, Quot.sound |
| Verif.Props.C72_modifier_shifted | propext, Classical.choice, Quot.sound |
| Verif.Props.C72_trim_nothing_partial | propext, Classical.choice, Quot.sound |
| Verif.C73_kdist | propext, Classical.choice, Quot.sound |
| Verif.C73_kdist_total | propext, Classical.choice, Quot.sound |
| Verif.Props.C74_reset_lattice | propext, Classical.choice, Quot.sound |
| Verif.Props.C75_plain_map | propext, Classical.choice, Quot.sound |
| Verif.Props.C76_dyn_pol | propext, Classical.choice, Quot.sound |
| Verif.Props.C76_ac_cond | propext, Classical.choice, Quot.sound |
| Verif.Props.C77_mesh | propext, Classical.choice, Quot.sound |
| Verif.Props.C77_kubo | propext, Classical.choice, Quot.sound |
| Verif.Props.C77_refused | propext, Classical.choice, Quot.sound |
| Verif.Props.C78_assign | propext, Classical.choice, Quot.sound |
| Verif.Props.C78_action | propext, Classical.choice, Quot.sound |
| Verif.Props.C78_adjoint | propext, Classical.choice, Quot.sound |
| Verif.Props.C78_commutator | propext, Classical.choice, Quot.sound |
| Verif.Props.C78_casimir | propext, Classical.choice, Quot.sound |
| Verif.Tbpm.C79_adjoint | propext, Classical.choice, Quot.sound |
| Verif.Tbpm.C79_eigenstate | propext, Classical.choice, Quot.sound |
| Verif.Tbpm.C79_commutes | propext, Classical.choice, Quot.sound |
| Verif.Tbpm.C80_random_state | propext, Classical.choice, Quot.sound |
| Verif.Tbpm.C80_site_state | propext, Classical.choice, Quot.sound |
| Verif.Tbpm.C80_repeated_site | propext, Classical.choice, Quot.sound |
| Verif.Tbpm.C81_dos | propext, Classical.choice, Quot.sound |
| Verif.Tbpm.C81_ldos | propext, Classical.choice, Quot.sound |
| Verif.Tbpm.C81_ldos_state | propext, Classical.choice, Quot.sound |
| Verif.Tbpm.C81_parallel | propext, Classical.choice, Quot.sound |
| Verif.Tbpm.C81_start | propext, Classical.choice, Quot.sound |
| Verif.Tbpm.C82_quasi_eigenstates | propext, Classical.choice, Quot.sound |
| Verif.Tbpm.C82_normalised | propext, Classical.choice, Quot.sound |
| Verif.Tbpm.C83_ac | propext, Classical.choice, Quot.sound |
| Verif.Tbpm.C83_dyn_pol | propext, Classical.choice, Quot.sound |
| Verif.Tbpm.C84_current | propext, Classical.choice, Quot.sound |
| Verif.Tbpm.C84_commutator | propext, Classical.choice, Quot.sound |
| Verif.Tbpm.C85_dc | propext, Classical.choice, Quot.sound |
| Verif.Analysis.C86_optical | propext, Classical.choice, Quot.sound |
| Verif.Analysis.C87_polarization | propext, Classical.choice, Quot.sound |
| Verif.Analysis.C87_epsilon | propext, Classical.choice, Quot.sound |
| Verif.Analysis.C87_q0 | propext, Classical.choice, Quot.sound |
| Verif.Analysis.C88_dc | propext, Classical.choice, Quot.sound |
| Verif.Analysis.C88_diffusion | propext, Classical.choice, Quot.sound |
| Verif.Analysis.C89_hall | propext, Classical.choice, Quot.sound |
| Verif.Analysis.C89_real | propext, Classical.choice, Quot.sound |
| Verif.Analysis.C90_dos_partial | propext, Classical.choice, Quot.sound |
| Verif.Analysis.C90_ac_partial | propext, Classical.choice, Quot.sound |
| Verif.Analysis.C90_dyn_pol_partial | propext, Classical.choice, Quot.sound |
| Verif.Analysis.C90_hall_partial | propext, Classical.choice, Quot.sound |
| Verif.Analysis.C90_dc_not_doubled | propext, Classical.choice, Quot.sound |
| Verif.Fft.C91_coefficients | propext, Classical.choice, Quot.sound |
| Verif.Fft.C91_complement | propext, Classical.choice, Quot.sound |
| Verif.Fft.C91_truncation | propext, Classical.choice, Quot.sound |
| Verif.Props.C92_hoppings | propext, Classical.choice, Quot.sound |
| Verif.Props.C92_wsvec | propext, Classical.choice, Quot.sound |
| Verif.Props.C92_wsvec_truncated | propext, Classical.choice, Quot.sound |
| Verif.Props.C92_centres | propext, Classical.choice, Quot.sound |
| Verif.Props.C92_lattice | propext, Classical.choice, Quot.sound |
| Verif.Props.C93_wan2pc | propext, Classical.choice, Quot.sound |
| Verif.Props.C93_wan2pc_corrected_partial | propext, Classical.choice, Quot.sound |
| Verif.Props.C94_texture_partial | propext, Classical.choice, Quot.sound |
| Verif.Props.C94_stale_cell | propext, Classical.choice, Quot.sound |
| Verif.Props.C94_failed_update | propext, Classical.choice, Quot.sound |
| Verif.Props.C94_stale_cell_wrong | propext, Classical.choice, Quot.sound |
| Verif.Props.C95_reshape_partial | propext, Classical.choice, Quot.sound |
| Verif.Props.C95_hetero | propext, Classical.choice, Quot.sound |
| Verif.Props.C95_singular | propext, Classical.choice, Quot.sound |
| Verif.Props.C95_large_loses_orbitals | propext, Classical.choice, Quot.sound |
| Verif.Props.C95_oblique_loses_orbitals | propext, Classical.choice, Quot.sound |
| Verif.Props.C95_outside_loses_orbitals | propext, Classical.choice, Quot.sound |
| Verif.Props.C95_same_crystal_partial | propext, Classical.choice, Quot.sound |
| Verif.Props.C96_folding_partial | propext, Classical.choice, Quot.sound |
| Verif.Props.C96_bloch_vectors | propext, Classical.choice, Quot.sound |
| Verif.Props.C96_spectrum_partial | propext, Classical.choice, Quot.sound |
| Verif.Props.C97_spiral | propext, Classical.choice, Quot.sound |
| Verif.Props.C97_empty | propext, Classical.choice, Quot.sound |
| Verif.Props.C97_distances | propext, Classical.choice, Quot.sound |
| Verif.Props.C98_honeycomb | propext, Classical.choice, Quot.sound |
| Verif.Props.C98_bands | propext, Classical.choice, Quot.sound |
| Verif.Props.C98_dirac | propext, Classical.choice, Quot.sound |
| Verif.Props.C98_rect_crystal_partial | propext, Classical.choice, Quot.sound |
| Verif.Props.C98_complex_t | propext, Classical.choice, Quot.sound |
| Verif.Props.C98_methods_partial | propext, Classical.choice, Quot.sound |
| Verif.Props.C98_c_ignored | propext, Classical.choice, Quot.sound |
| Verif.Props.C99_kane_mele | propext, Classical.choice, Quot.sound |
| Verif.Props.C99_time_reversal | propext, Classical.choice, Quot.sound |
| Verif.Props.C99_kramers | propext, Classical.choice, Quot.sound |
| Verif.Props.C99_symmetric | propext, Classical.choice, Quot.sound |
| Verif.Props.C100_black_phosphorus | propext, Classical.choice, Quot.sound |
| Verif.Props.C100_black_phosphorus_bands | propext, Classical.choice, Quot.sound |
| Verif.Props.C100_symmetry | propext, Classical.choice, Quot.sound |
| Verif.Props.C101_unitary | propext, Classical.choice, Quot.sound |
| Verif.Props.C101_intertwines | propext, Classical.choice, Quot.sound |
| Verif.Props.C101_antiunitary | propext, Classical.choice, Quot.sound |
| Verif.Props.C101_real | propext, Classical.choice, Quot.sound |
| Verif.Props.C101_degenerate | propext, Classical.choice, Quot.sound |
| Verif.Props.C102_last_write | propext, Classical.choice, Quot.sound |
| Verif.Props.C102_add | propext, Classical.choice, Quot.sound |
| Verif.Props.C102_refused_partial | propext, Classical.choice, Quot.sound |
| Verif.Props.C102_once | propext, Classical.choice, Quot.sound |
| Verif.Props.C102_not_atomic | propext, Classical.choice, Quot.sound |
| Verif.Props.C103_antimonene | propext, Classical.choice, Quot.sound |
| Verif.Props.C103_site_maps | propext, Classical.choice, Quot.sound |
| Verif.Props.C103_bands | propext, Classical.choice, Quot.sound |
| Verif.Props.C103_soc | propext, Classical.choice, Quot.sound |
| Verif.Props.C103_degenerate | propext, Classical.choice, Quot.sound |
| Verif.Props.C104_container | propext, Classical.choice, Quot.sound |
| Verif.Props.C104_calls | propext, Classical.choice, Quot.sound |
| Verif.Props.C104_bands | propext, Classical.choice, Quot.sound |
| Verif.Props.C104_invariant | propext, Classical.choice, Quot.sound |
| Verif.Props.C104_empty_refused | propext, Classical.choice, Quot.sound |
| Verif.Props.C104_projection | propext, Classical.choice, Quot.sound |
| Verif.Props.C104_projection_not_one | propext, Classical.choice, Quot.sound |
| Verif.Props.C104_moved_orbital | propext, Classical.choice, Quot.sound |
| Verif.Props.C105_toc | propext, Classical.choice, Quot.sound |
| Verif.Props.C105_reports | propext, Classical.choice, Quot.sound |
| Verif.Props.C105_bounded | propext, Classical.choice, Quot.sound |
| Verif.Props.C105_progress | propext, Classical.choice, Quot.sound |
| Verif.Props.C105_progress_end | propext, Classical.choice, Quot.sound |
| Verif.Props.C105_progress_count | propext, Classical.choice, Quot.sound |
| Verif.Props.C105_progress_zero | propext, Classical.choice, Quot.sound |
| Verif.Props.C106_check_partial | propext, Classical.choice, Quot.sound |
| Verif.Props.C106_unchecked | propext, Classical.choice, Quot.sound |
| Verif.Props.C106_unchecked_witness | propext, Classical.choice, Quot.sound |
| Verif.Props.C106_missing | propext, Classical.choice, Quot.sound |
| Verif.Props.C106_read | propext, Classical.choice, Quot.sound |
| Verif.Props.C106_read_witness | propext, Classical.choice, Quot.sound |
| Verif.Props.C106_round_trip | propext, Classical.choice, Quot.sound |
| Verif.Props.C106_temperature | propext, Classical.choice, Quot.sound |
| Verif.Props.C106_defaults_partial | propext, Classical.choice, Quot.sound |
| Verif.Props.C106_bessel_max | propext, Classical.choice, Quot.sound |
| Verif.Props.C106_all_documented | propext, Classical.choice, Quot.sound |
| Verif.Tbpm.C107_step | propext, Classical.choice, Quot.sound |
| Verif.Tbpm.C107_norm | propext, Classical.choice, Quot.sound |
| Verif.Tbpm.C107_psi_t | propext, Classical.choice, Quot.sound |
| Verif.Tbpm.C107_dos | propext, Classical.choice, Quot.sound |
| Verif.Tbpm.C107_ldos | propext, Classical.choice, Quot.sound |
| Verif.Tbpm.C107_no_drift | propext, Classical.choice, Quot.sound |
| Verif.Tbpm.C107_default | propext, Classical.choice, Quot.sound |
| Verif.Tbpm.C107_default_dos | propext, Classical.choice, Quot.sound |
| Verif.Fft.C108_series | propext, Classical.choice, Quot.sound |
| Verif.Fft.C108_operator | propext, Classical.choice, Quot.sound |
| Verif.Fft.C108_eigenstate | propext, Classical.choice, Quot.sound |
| Verif.Fft.C109_ac | propext, Classical.choice, Quot.sound |
| Verif.Fft.C109_dyn_pol | propext, Classical.choice, Quot.sound |
| Verif.Fft.C109_no_drift | propext, Classical.choice, Quot.sound |
| Verif.Props.C110_crystal | propext, Classical.choice, Quot.sound |
| Verif.Props.C110_unknown | propext, Classical.choice, Quot.sound |
| Verif.Props.C110_parameters | propext, Classical.choice, Quot.sound |
| Verif.Props.C110_symmetric | propext, Classical.choice, Quot.sound |
| Verif.Props.C110_bands | propext, Classical.choice, Quot.sound |
| Verif.Props.C111_graphene_sp | propext, Classical.choice, Quot.sound |
| Verif.Props.C111_graphene_sp_symmetric | propext, Classical.choice, Quot.sound |
| Verif.Props.C111_graphene_sp_bands | propext, Classical.choice, Quot.sound |
| Verif.Props.C111_hoppings | propext, Classical.choice, Quot.sound |
| Verif.Props.C111_symmetric | propext, Classical.choice, Quot.sound |
| Verif.Props.C112_mos2 | propext, Classical.choice, Quot.sound |
| Verif.Props.C112_bonds | propext, Classical.choice, Quot.sound |
| Verif.Props.C112_time_reversal | propext, Classical.choice, Quot.sound |
| Verif.Props.C112_kramers | propext, Classical.choice, Quot.sound |
| Verif.Props.C112_mirror | propext, Classical.choice, Quot.sound |
| Verif.Props.C112_not_hexagonal | propext, Classical.choice, Quot.sound |
| Verif.Props.C113_orbitals_partial | propext, Classical.choice, Quot.sound |
| Verif.Props.C113_nucleus | propext, Classical.choice, Quot.sound |
| Verif.Props.C113_zero | propext, Classical.choice, Quot.sound |
| Verif.Props.C113_s_any_m | propext, Classical.choice, Quot.sound |
| Verif.Props.C114_cube_partial | propext, Classical.choice, Quot.sound |
| Verif.Props.C114_default | propext, Classical.choice, Quot.sound |
| Verif.Props.C114_atoms | propext, Classical.choice, Quot.sound |
| Verif.Props.C114_conventions | propext, Classical.choice, Quot.sound |
| Verif.Props.C115_cell | propext, Classical.choice, Quot.sound |
| Verif.Props.C115_ends_partial | propext, Classical.choice, Quot.sound |
| Verif.Props.C115_view | propext, Classical.choice, Quot.sound |
| Verif.Props.C115_super_partial | propext, Classical.choice, Quot.sound |
| Verif.Props.C115_sample | propext, Classical.choice, Quot.sound |
| Verif.Props.C115_modifier_fails | propext, Classical.choice, Quot.sound |
| Verif.Props.C115_dangling | propext, Classical.choice, Quot.sound |
| Verif.Props.C116_square_partial | propext, Classical.choice, Quot.sound |
| Verif.Props.C116_not_square | propext, Classical.choice, Quot.sound |
| Verif.Props.C117_convention2 | propext, Classical.choice, Quot.sound |
| Verif.Props.C117_convention1 | propext, Classical.choice, Quot.sound |
| Verif.Props.C117_close | propext, Classical.choice, Quot.sound |
| Verif.Props.C117_accepts | propext, Classical.choice, Quot.sound |
| Verif.Props.C118_error | propext, Classical.choice, Quot.sound |
| Verif.Props.C118_fit | propext, Classical.choice, Quot.sound |
| Verif.Props.C118_scale | propext, Classical.choice, Quot.sound |
| Verif.Props.C118_accepts | propext, Classical.choice, Quot.sound |
| Verif.Props.C119_words_partial | propext, Classical.choice, Quot.sound |
| Verif.Props.C119_repeats | propext, Classical.choice, Quot.sound |
| Verif.Props.C119_seeds_repeat | propext |
| Verif.Props.C119_default_repeats | propext |
| Verif.Props.C120_sync | propext, Classical.choice, Quot.sound |
| Verif.Props.C120_inverse | propext, Classical.choice, Quot.sound |
| Verif.Props.C120_pc2sc | propext, Classical.choice, Quot.sound |
| Verif.Props.C120_sc2pc_partial | propext, Classical.choice, Quot.sound |
| Verif.Props.C120_sc2pc_negative | propext, Classical.choice, Quot.sound |
| Verif.Props.C120_sc2pc_array | propext, Classical.choice, Quot.sound |
| Verif.Props.C120_pc2sc_array_partial | propext, Classical.choice, Quot.sound |
| Verif.Props.C120_pc2sc_array_wraps | propext, Quot.sound |
| Verif.Props.C121_axis | propext, Classical.choice, Quot.sound |
| Verif.Props.C121_bands | propext, Classical.choice, Quot.sound |
| Verif.Props.C121_model | propext, Classical.choice, Quot.sound |
| Verif.Props.C121_wfc_partial | propext, Classical.choice, Quot.sound |
| Verif.Props.C121_wfc_fails | propext, Classical.choice, Quot.sound |
| Verif.Props.C121_vector | propext, Classical.choice, Quot.sound |
| Verif.Output.C122_kept | propext, Classical.choice, Quot.sound |
| Verif.Output.C122_names | propext, Classical.choice, Quot.sound |
| Verif.Output.C122_seconds | propext, Classical.choice, Quot.sound |
| Verif.Output.C122_same_second_fails | propext, Classical.choice, Quot.sound |
| Verif.Output.C122_dc_fails | propext, Classical.choice, Quot.sound |
| Verif.Output.C122_crash_partial | propext, Classical.choice, Quot.sound |
| Verif.Output.C122_crash_loses | propext, Classical.choice, Quot.sound |
| Verif.Output.C122_samples_fails | propext, Classical.choice, Quot.sound |
| Verif.Output.C122_rerun | propext, Quot.sound |
| Verif.Output.C122_parent_missing | propext, Classical.choice, Quot.sound |
| Verif.Output.C122_stale | propext, Classical.choice, Quot.sound |
| Verif.Props.C123_bloch | propext, Classical.choice, Quot.sound |
| Verif.Props.C123_tbpm | propext, Classical.choice, Quot.sound |
| Verif.Props.C123_ring | propext, Classical.choice, Quot.sound |
| Verif.Tbpm.C124_mean | propext, Classical.choice, Quot.sound |
| Verif.Tbpm.C124_variance | propext, Classical.choice, Quot.sound |
| Verif.Tbpm.C124_self_averaging | propext, Classical.choice, Quot.sound |
| Verif.Tbpm.C124_dos | propext, Classical.choice, Quot.sound |
| Verif.Tbpm.C124_ac | propext, Classical.choice, Quot.sound |
| Verif.Tbpm.C124_hall | propext, Classical.choice, Quot.sound |
| Verif.C125_density | propext, Classical.choice, Quot.sound |
| Verif.C125_weight | propext, Classical.choice, Quot.sound |
| Verif.C125_additive | propext, Classical.choice, Quot.sound |
| Verif.C125_energies | propext, Classical.choice, Quot.sound |
| Verif.Props.C126_new | propext, Classical.choice, Quot.sound |
| Verif.Props.C126_absorption | propext, Classical.choice, Quot.sound |
| Verif.Props.C126_real_current | propext, Classical.choice, Quot.sound |
| Verif.Props.C126_loss | propext, Classical.choice, Quot.sound |
| Verif.Props.C126_epsilon | propext, Classical.choice, Quot.sound |
| Verif.Props.C126_epsilon_list | propext, Classical.choice, Quot.sound |
| Verif.Props.C126_screening | propext, Classical.choice, Quot.sound |
| Verif.Props.C126_damping | propext, Classical.choice, Quot.sound |
| Verif.C127_observables | propext, Classical.choice, Quot.sound |
| Verif.C127_gauges_partial | propext, Classical.choice, Quot.sound |
| Verif.C127_gauge2 | propext, Classical.choice, Quot.sound |
| Verif.C127_origin | propext, Classical.choice, Quot.sound |
| Verif.C127_origin_k | propext, Classical.choice, Quot.sound |
| Verif.C127_reversal | propext, Classical.choice, Quot.sound |
| Verif.C127_ribbon_partial | propext, Classical.choice, Quot.sound |
| Verif.C127_ribbon_wrong_gauge | propext, Classical.choice, Quot.sound |
| Verif.Tbpm.C128_error | propext, Classical.choice, Quot.sound |
| Verif.Tbpm.C128_depth | propext, Classical.choice, Quot.sound |
| Verif.Tbpm.C128_ldos | propext, Classical.choice, Quot.sound |
| Verif.Tbpm.C128_local | propext, Classical.choice, Quot.sound |
| Verif.Tbpm.C128_nearsighted | propext, Classical.choice, Quot.sound |
| Verif.Tbpm.C129_one_sample_partial | propext, Classical.choice, Quot.sound |
| Verif.Tbpm.C129_several_samples_wrong | propext, Classical.choice, Quot.sound |
| Verif.Analysis.C130_dos | propext, Classical.choice, Quot.sound |
| Verif.Analysis.C130_ldos | propext, Classical.choice, Quot.sound |
| Verif.Analysis.C130_near | propext, Classical.choice, Quot.sound |
| Verif.Analysis.C130_default | propext, Classical.choice, Quot.sound |
| Verif.C131_bands | propext, Classical.choice, Quot.sound |
| Verif.C131_dos_partial | propext, Classical.choice, Quot.sound |
| Verif.C131_default | propext, Classical.choice, Quot.sound |
| Verif.C131_dos_wrong | propext, Classical.choice, Quot.sound |
| Verif.Analysis.C132_isolated | propext, Classical.choice, Quot.sound |
| Verif.Analysis.C132_empty | propext, Classical.choice, Quot.sound |
| Verif.Analysis.C132_no_drift | propext, Classical.choice, Quot.sound |
| Verif.Analysis.C132_default | propext, Classical.choice, Quot.sound |
| Verif.Tbpm.C133_ldos | propext, Classical.choice, Quot.sound |
| Verif.Tbpm.C133_analysis | propext, Classical.choice, Quot.sound |
| Verif.Tbpm.C133_terms | propext, Classical.choice, Quot.sound |
| Verif.Tbpm.C133_default | propext, Classical.choice, Quot.sound |
| Verif.Tbpm.C134_corr_dos | propext, Classical.choice, Quot.sound |
| Verif.Tbpm.C134_corr_ldos | propext, Classical.choice, Quot.sound |
| Verif.Tbpm.C134_ldos_real | propext, Classical.choice, Quot.sound |
| Verif.Tbpm.C134_mirror | propext, Classical.choice, Quot.sound |
| Verif.Tbpm.C134_ldos | propext, Classical.choice, Quot.sound |
| Verif.Tbpm.C134_mean | propext, Classical.choice, Quot.sound |
| Verif.Tbpm.C134_recursion | propext, Classical.choice, Quot.sound |
| Verif.Tbpm.C134_recursion_even | propext, Classical.choice, Quot.sound |
| Verif.Props.C134_cell | propext, Classical.choice, Quot.sound |
| Verif.Props.C134_bands | propext, Classical.choice, Quot.sound |
| Verif.Props.C134_dos | propext, Classical.choice, Quot.sound |
| Verif.C135_order | propext, Classical.choice, Quot.sound |
| Verif.C135_bloch | propext, Classical.choice, Quot.sound |
| Verif.C135_rescale | propext, Classical.choice, Quot.sound |
| Verif.C135_magnetic | propext, Classical.choice, Quot.sound |
| Verif.C135_csr | propext, Classical.choice, Quot.sound |
| Verif.Tbpm.C135_corr_dos | propext, Classical.choice, Quot.sound |
| Verif.Tbpm.C135_corr_ldos | propext, Classical.choice, Quot.sound |
| Verif.Tbpm.C135_corr_ac | propext, Classical.choice, Quot.sound |
| Verif.Tbpm.C135_mean | propext, Classical.choice, Quot.sound |
| Verif.Props.C136_bands | propext, Classical.choice, Quot.sound |
| Verif.Props.C136_dos | propext, Classical.choice, Quot.sound |
| Verif.Props.C136_cell | propext, Classical.choice, Quot.sound |
| Verif.Props.C136_merge | propext, Classical.choice, Quot.sound |
| Verif.C136_sample | propext, Classical.choice, Quot.sound |
| Verif.C136_sample_bloch | propext, Classical.choice, Quot.sound |
| Verif.C136_sample_csr | propext, Classical.choice, Quot.sound |
| Verif.Tbpm.C136_mean | propext, Classical.choice, Quot.sound |
| Verif.Tbpm.C136_ldos | propext, Classical.choice, Quot.sound |
| Verif.Omp.C137_loop | propext, Classical.choice, Quot.sound |
| Verif.Omp.C137_vector | propext, Classical.choice, Quot.sound |
| Verif.Omp.C137_csr | propext, Classical.choice, Quot.sound |
| Verif.Omp.C137_fft | propext, Classical.choice, Quot.sound |
| Verif.Omp.C137_energies | propext, Classical.choice, Quot.sound |
| Verif.Omp.C137_moments | propext, Classical.choice, Quot.sound |
| Verif.Omp.C137_write | propext, Classical.choice, Quot.sound |
| Verif.Omp.C137_reduction | propext, Classical.choice, Quot.sound |
| Verif.Omp.C137_private_needed | propext, Classical.choice, Quot.sound |
| Verif.Mpi.C138_run | propext, Classical.choice, Quot.sound |
| Verif.Mpi.C138_script | propext, Classical.choice, Quot.sound |
| Verif.Mpi.C138_hang | propext, Classical.choice, Quot.sound |
| Verif.Mpi.C138_states | propext, Classical.choice, Quot.sound |
| Verif.Mpi.C138_bands | propext, Classical.choice, Quot.sound |
| Verif.Mpi.C138_dos | propext, Classical.choice, Quot.sound |
| Verif.Mpi.C138_phases | propext, Classical.choice, Quot.sound |
| Verif.Mpi.C138_ac_partial | propext, Classical.choice, Quot.sound |
| Verif.Mpi.C138_dyn_regular_partial | propext, Classical.choice, Quot.sound |
| Verif.Mpi.C138_dyn_arbitrary_partial | propext, Classical.choice, Quot.sound |
| Verif.Mpi.C138_corr | propext, Classical.choice, Quot.sound |
| Verif.Mpi.C138_corr_dos | propext, Classical.choice, Quot.sound |
| Verif.Mpi.C138_analysis_partial | propext, Classical.choice, Quot.sound |
| Verif.Mpi.C138_output_partial | propext, Classical.choice, Quot.sound |
| Verif.Mpi.C138_corr_dc | propext, Classical.choice, Quot.sound |
| Verif.Mpi.C138_dos_script | propext, Classical.choice, Quot.sound |
| Verif.Mpi.C138_ac_hangs | propext, Classical.choice, Quot.sound |
| Verif.Mpi.C138_dyn_arbitrary_hangs | propext, Classical.choice, Quot.sound |
| Verif.Mpi.C138_dyn_regular_hangs | propext, Classical.choice, Quot.sound |
| Verif.Mpi.C138_output_hangs | propext, Classical.choice, Quot.sound |
| Verif.Mpi.C138_analysis_hangs | propext, Classical.choice, Quot.sound |
| Verif.Props.C139_bands | propext, Classical.choice, Quot.sound |
| Verif.Props.C139_dos | propext, Classical.choice, Quot.sound |
| Verif.Props.C139_dyn_regular | propext, Classical.choice, Quot.sound |
| Verif.Props.C139_dyn_arbitrary | propext, Classical.choice, Quot.sound |
| Verif.Props.C139_ac | propext, Classical.choice, Quot.sound |
| Verif.Props.C139_cell | propext, Classical.choice, Quot.sound |
| Verif.Props.C139_solver | propext, Classical.choice, Quot.sound |
| Verif.Props.C140_dos | propext, Classical.choice, Quot.sound |
| Verif.Props.C140_dyn_pol_partial | propext, Classical.choice, Quot.sound |
| Verif.Props.C140_dyn_pol_wrong | propext, Classical.choice, Quot.sound |
| Verif.Props.C140_dos_example | propext, Classical.choice, Quot.sound |
| Verif.Props.C140_dyn_pol_example | propext, Classical.choice, Quot.sound |
| Verif.Props.C140_ac_partial | propext, Classical.choice, Quot.sound |
| Verif.Props.C140_ac_example | propext, Classical.choice, Quot.sound |
| Verif.Props.C141_bands | propext, Classical.choice, Quot.sound |
| Verif.Props.C141_dyn_arbitrary | propext, Classical.choice, Quot.sound |
| Verif.Props.C141_dyn_regular | propext, Classical.choice, Quot.sound |
| Verif.Props.C141_ac | propext, Classical.choice, Quot.sound |
| Verif.Props.C141_built | propext, Classical.choice, Quot.sound |
| Verif.Props.C141_example | propext, Classical.choice, Quot.sound |
| Verif.Props.C142_bands | propext, Classical.choice, Quot.sound |
| Verif.Props.C142_dos | propext, Classical.choice, Quot.sound |
| Verif.Props.C142_dyn_arbitrary | propext, Classical.choice, Quot.sound |
| Verif.Props.C142_dyn_regular | propext, Classical.choice, Quot.sound |
| Verif.Props.C142_ac | propext, Classical.choice, Quot.sound |
| Verif.Props.C142_example | propext, Classical.choice, Quot.sound |
| Verif.Props.C143_bands | propext, Classical.choice, Quot.sound |
| Verif.Props.C143_dos | propext, Classical.choice, Quot.sound |
| Verif.Props.C143_dyn_arbitrary | propext, Classical.choice, Quot.sound |
| Verif.Props.C143_dyn_regular | propext, Classical.choice, Quot.sound |
| Verif.Props.C143_ac_partial | propext, Classical.choice, Quot.sound |
| Verif.Props.C143_cell | propext, Classical.choice, Quot.sound |
| Verif.Props.C143_ac_wrong | propext, Classical.choice, Quot.sound |
| Verif.Props.C143_example | propext, Classical.choice, Quot.sound |
| Verif.Props.C144_dyn_arbitrary | propext, Classical.choice, Quot.sound |
| Verif.Props.C144_dyn_regular | propext, Classical.choice, Quot.sound |
| Verif.Props.C144_ac | propext, Classical.choice, Quot.sound |
| Verif.Props.C144_epsilon | propext, Classical.choice, Quot.sound |
| Verif.Props.C144_cell | propext, Classical.choice, Quot.sound |
| Verif.Props.C144_example | propext, Classical.choice, Quot.sound |
| Verif.Props.C145_uniform_arbitrary_partial | propext, Classical.choice, Quot.sound |
| Verif.Props.C145_uniform_regular_partial | propext, Classical.choice, Quot.sound |
| Verif.Props.C145_bound_partial | propext, Classical.choice, Quot.sound |
| Verif.Props.C145_example | propext, Classical.choice, Quot.sound |
| Verif.Props.C145_overlap_wrong | propext, Classical.choice, Quot.sound |
| Verif.Props.C146_dyn_arbitrary | propext, Classical.choice, Quot.sound |
| Verif.Props.C146_dyn_regular | propext, Classical.choice, Quot.sound |
| Verif.Props.C146_ac | propext, Classical.choice, Quot.sound |
| Verif.Props.C146_neutral | propext, Classical.choice, Quot.sound |
| Verif.Props.C146_cell | propext, Classical.choice, Quot.sound |
| Verif.Props.C146_example | propext, Classical.choice, Quot.sound |
| Verif.Props.C147_height_partial | propext, Classical.choice, Quot.sound |
| Verif.Props.C147_regular_partial | propext, Classical.choice, Quot.sound |
| Verif.Props.C147_tilted | propext, Classical.choice, Quot.sound |
| Verif.Props.C147_cell | propext, Classical.choice, Quot.sound |
| Verif.Props.C147_regular_example | propext, Classical.choice, Quot.sound |
| Verif.Props.C147_example | propext, Classical.choice, Quot.sound |
| Verif.Props.C147_tilted_wrong | propext, Classical.choice, Quot.sound |
