{
 "claims": [
  {
   "property": "C01",
   "status": "proved",
   "theorems": [
    "Verif.Props.C01_refines_conjugate_map",
    "Verif.Props.C01_conjugate_symmetric",
    "Verif.Props.C01_last_write_wins",
    "Verif.Props.C01_remove_status",
    "Verif.Props.C01_trace"
   ],
   "note": "A hopping container behaves as a conjugate-symmetric map"
  },
  {
   "property": "C02",
   "status": "proved",
   "theorems": [
    "Verif.Props.C02_export_exact",
    "Verif.Props.C02_no_conjugate_pair",
    "Verif.Props.C02_num_hop"
   ],
   "note": "Exactly one member of each conjugate pair is exported"
  },
  {
   "property": "C03",
   "status": "proved",
   "theorems": [
    "Verif.Props.C03_remove_orbitals"
   ],
   "note": "Removing orbitals renumbers hoppings exactly"
  },
  {
   "property": "C04",
   "status": "partial",
   "theorems": [
    "Verif.Props.C04_locked_cell_unchanged",
    "Verif.Props.C04_locked_history",
    "Verif.Props.C04_lock_takes_effect",
    "Verif.Props.C04_inter_hopping_lock_ignored",
    "Verif.Props.C04_inter_hopping_add_partial"
   ],
   "note": "Holds for PrimitiveCell; InterHopping.remove_* ignore the lock (negation C04_inter_hopping_lock_ignored)."
  },
  {
   "property": "C05",
   "status": "partial",
   "theorems": [
    "Verif.Props.C05_well_formed_partial",
    "Verif.Props.C05_remove_orbitals",
    "Verif.Props.C05_add_hopping",
    "Verif.Props.C05_negative_index_breaks",
    "Verif.Props.C05_out_of_range_breaks"
   ],
   "note": "Holds for all histories whose removal calls name existing orbitals; negations with witnesses for negative and out-of-range indices."
  },
  {
   "property": "C06",
   "status": "proved",
   "theorems": [
    "Verif.Props.C06_apply_pbc",
    "Verif.Props.C06_idempotent_commute"
   ],
   "note": "apply_pbc keeps exactly the hoppings inside the periodic directions"
  },
  {
   "property": "C07",
   "status": "proved",
   "theorems": [
    "Verif.Props.C07_trim",
    "Verif.Props.C07_neighbours_finite"
   ],
   "note": "trim removes exactly the dangling orbitals"
  },
  {
   "property": "C08",
   "status": "partial",
   "theorems": [
    "Verif.Props.C08_arrays_fresh_partial",
    "Verif.Props.C08_force_sync_fresh",
    "Verif.Props.C08_stale_array"
   ],
   "note": "Holds when hash does not collide on the states met; false for CPython hash(-1)==hash(-2) (C08_stale_array)."
  },
  {
   "property": "C09",
   "status": "proved",
   "theorems": [
    "Verif.Props.C09_hermitian"
   ],
   "note": "The Bloch Hamiltonian is Hermitian"
  },
  {
   "property": "C10",
   "status": "proved",
   "theorems": [
    "Verif.Props.C10_conventions_same_spectrum"
   ],
   "note": "Both phase conventions give the same spectrum"
  },
  {
   "property": "C11",
   "status": "proved",
   "theorems": [
    "Verif.Props.C11_periodic"
   ],
   "note": "Bands are periodic in reciprocal space"
  },
  {
   "property": "C12",
   "status": "proved",
   "theorems": [
    "Verif.Props.C12_fourier_sum",
    "Verif.Props.C12_order_independent"
   ],
   "note": "The Bloch Hamiltonian is the Fourier sum of the full hopping map"
  },
  {
   "property": "C13",
   "status": "proved",
   "theorems": [
    "Verif.Props.C13_dense_eq_csr",
    "Verif.Props.C13_sync_gives_fresh"
   ],
   "note": "Dense and sparse Bloch Hamiltonians agree"
  },
  {
   "property": "C14",
   "status": "proved",
   "theorems": [
    "Verif.Props.C14_bijection",
    "Verif.Props.C14_inverse",
    "Verif.Props.C14_vacancy",
    "Verif.Props.C14_monotone",
    "Verif.Props.C14_objects"
   ],
   "note": "Orbital numbering of a supercell with vacancies is a bijection"
  },
  {
   "property": "C15",
   "status": "proved",
   "theorems": [
    "Verif.Props.C15_bisection_eq_linear",
    "Verif.Props.C15_value",
    "Verif.Props.C15_sorted"
   ],
   "note": "The bisection index search agrees with the linear search"
  },
  {
   "property": "C16",
   "status": "proved",
   "theorems": [
    "Verif.Props.C16_periodic",
    "Verif.Props.C16_open"
   ],
   "note": "Wrapping a cell index by the periodic boundary is Euclidean division"
  },
  {
   "property": "C17",
   "status": "proved",
   "theorems": [
    "Verif.Props.C17_fast_eq_general"
   ],
   "note": "The fast hopping builder equals the general builder"
  },
  {
   "property": "C18",
   "status": "proved",
   "theorems": [
    "Verif.Props.C18_terms",
    "Verif.Props.C18_buffer",
    "Verif.Props.C18_objects"
   ],
   "note": "Supercell hoppings are exactly the images of primitive hoppings"
  },
  {
   "property": "C19",
   "status": "proved",
   "theorems": [
    "Verif.Props.C19_no_double_counting",
    "Verif.Props.C19_objects",
    "Verif.Props.C19_size_needed"
   ],
   "note": "The minimal-size check prevents double counting"
  },
  {
   "property": "C20",
   "status": "proved",
   "theorems": [
    "Verif.Props.C20_displacement",
    "Verif.Props.C20_objects"
   ],
   "note": "Hopping displacements are the true bond vectors"
  },
  {
   "property": "C21",
   "status": "partial",
   "theorems": [
    "Verif.Props.C21_modifier_partial",
    "Verif.Props.C21_zero_cell_modifier",
    "Verif.Props.C21_repeated_pair",
    "Verif.Props.C21_float_indices",
    "Verif.Props.C21_bond_partial"
   ],
   "note": "Proved for modifiers with at most one entry per orbital pair; negations: repeated pairs (C21_repeated_pair) and float64 index arrays for override-only modifiers (C21_float_indices)."
  },
  {
   "property": "C22",
   "status": "partial",
   "theorems": [
    "Verif.Props.C22_failure_locks_cell",
    "Verif.Props.C22_content_partial"
   ],
   "note": "A failing constructor leaves the primitive cell locked (C22_failure_locks_cell); lattice, origin, orbitals and hoppings are kept."
  },
  {
   "property": "C23",
   "status": "partial",
   "theorems": [
    "Verif.Props.C23_overflow_iff_partial",
    "Verif.Props.C23_overflow"
   ],
   "note": "32-bit index arithmetic is exact iff the cell index fits in 31 bits; C23_overflow is a legal supercell with a wrong index."
  },
  {
   "property": "C24",
   "status": "partial",
   "theorems": [
    "Verif.Props.C24_trim_partial",
    "Verif.Props.C24_trim_raises"
   ],
   "note": "Proved whenever get_hop returns integer arrays; C24_trim_raises shows the override-only modifier for which trim raises."
  },
  {
   "property": "C25",
   "status": "proved",
   "theorems": [
    "Verif.C25_fast_valid",
    "Verif.C25_safe_valid",
    "Verif.C25_fast_matrix",
    "Verif.C25_safe_matrix",
    "Verif.C25_hermitian",
    "Verif.C25_fast_safe_agree",
    "Verif.C25_fast_layout"
   ],
   "note": "The CSR Hamiltonian of a sample is diag + hoppings + hermitian conjugate"
  },
  {
   "property": "C26",
   "status": "proved",
   "theorems": [
    "Verif.C26_sort_col"
   ],
   "note": "Sorting columns does not change the sparse matrix"
  },
  {
   "property": "C27",
   "status": "partial",
   "theorems": [
    "Verif.Props.C27_orbitals",
    "Verif.Props.C27_blocks_partial",
    "Verif.Props.C27_new",
    "Verif.Props.C27_inter_out_of_range"
   ],
   "note": "Proved for inter-hoppings between existing orbitals; the container does not check indices (C27_inter_out_of_range)."
  },
  {
   "property": "C28",
   "status": "partial",
   "theorems": [
    "Verif.Props.C28_rescale_partial",
    "Verif.Props.C28_recorded",
    "Verif.Props.C28_forced_hop",
    "Verif.Props.C28_forced_eng"
   ],
   "note": "Proved for all histories without forced init_orb_eng/init_hop; these two leave energies and hoppings inconsistent (C28_forced_hop, C28_forced_eng)."
  },
  {
   "property": "C29",
   "status": "partial",
   "theorems": [
    "Verif.Props.C29_bound_partial",
    "Verif.Props.C29_negative_energies",
    "Verif.Props.C29_second_call"
   ],
   "note": "Proved for non-negative on-site energies and one call; C29_negative_energies and C29_second_call are the counterexamples."
  },
  {
   "property": "C30",
   "status": "partial",
   "theorems": [
    "Verif.Props.C30_modulus_additive",
    "Verif.Props.C30_flux_partial",
    "Verif.Props.C30_gauge2_no_flux",
    "Verif.Props.C30_square",
    "Verif.Props.C30_wrapping_walks",
    "Verif.Props.C30_objects"
   ],
   "note": "Proved for gauges 0 and 1 and loops inside the sample; gauge 2 produces no flux (C30_gauge2_no_flux), loops across periodic boundaries depend on the gauge (C30_wrapping_walks)."
  },
  {
   "property": "C31",
   "status": "proved",
   "theorems": [
    "Verif.Props.C31_additive",
    "Verif.Props.C31_objects",
    "Verif.Props.C31_bloch"
   ],
   "note": "Setting k-points composes additively and reproduces the Bloch Hamiltonian"
  },
  {
   "property": "C32",
   "status": "partial",
   "theorems": [
    "Verif.Props.C32_round_trip_partial",
    "Verif.Props.C32_full",
    "Verif.Props.C32_stale_files"
   ],
   "note": "Proved for an empty directory, and for any directory when all arrays exist; C32_stale_files is the counterexample for reused directories."
  },
  {
   "property": "C33",
   "status": "proved",
   "theorems": [
    "Verif.Props.C33_extend",
    "Verif.Props.C33_errors",
    "Verif.Props.C33_same_crystal"
   ],
   "note": "Extending a primitive cell replicates orbitals and hoppings exactly"
  },
  {
   "property": "C34",
   "status": "proved",
   "theorems": [
    "Verif.Props.C34_folding",
    "Verif.Props.C34_spectrum"
   ],
   "note": "The extended cell folds the band structure"
  },
  {
   "property": "C35",
   "status": "partial",
   "theorems": [
    "Verif.Props.C35_merge",
    "Verif.Props.C35_repeated",
    "Verif.Props.C35_consistent",
    "Verif.Props.C35_errors",
    "Verif.Props.C35_extended",
    "Verif.Props.C35_inputs_unchanged_partial",
    "Verif.Props.C35_inputs_modified"
   ],
   "note": "The direct-sum structure is proved (C35_merge); the input cells are left unchanged only if they already have the reference lattice and origin (C35_inputs_unchanged_partial), otherwise they are moved (C35_inputs_modified)."
  },
  {
   "property": "C36",
   "status": "proved",
   "theorems": [
    "Verif.C36_frac_cart_frac",
    "Verif.C36_cart_frac_cart",
    "Verif.C36_meaning",
    "Verif.C36_reciprocal"
   ],
   "note": "Fractional and Cartesian coordinates are inverse conversions"
  },
  {
   "property": "C37",
   "status": "partial",
   "theorems": [
    "Verif.C37_rigid_partial",
    "Verif.C37_pointwise",
    "Verif.C37_axis_fixed",
    "Verif.C37_compose",
    "Verif.C37_right_hand",
    "Verif.C37_integer_coordinates"
   ],
   "note": "Proved for float arrays; C37_integer_coordinates shows that integer arrays are truncated."
  },
  {
   "property": "C38",
   "status": "proved",
   "theorems": [
    "Verif.C38_lattice_vectors",
    "Verif.C38_admissible",
    "Verif.C38_volume_area",
    "Verif.C38_volume_value"
   ],
   "note": "Lattice parameters determine the lattice vectors"
  },
  {
   "property": "C39",
   "status": "partial",
   "theorems": [
    "Verif.C39_kpath_partial",
    "Verif.C39_kpath_total",
    "Verif.C39_empty_segment",
    "Verif.C39_kmesh",
    "Verif.C39_kmesh_total"
   ],
   "note": "k-mesh proved; k-path proved with correct hs_index for segments with at least one point; C39_empty_segment shows the wrong index for an empty segment."
  },
  {
   "property": "C40",
   "status": "proved",
   "theorems": [
    "Verif.Props.C40_tensor",
    "Verif.Props.C40_invariant",
    "Verif.Props.C40_rotation",
    "Verif.Props.C40_errors",
    "Verif.Props.C40_complex_parameters"
   ],
   "note": "Slater-Koster integrals are the rotationally invariant two-centre integrals"
  },
  {
   "property": "C41",
   "status": "proved",
   "theorems": [
    "Verif.Props.C41_hermitian",
    "Verif.Props.C41_complex_parameters"
   ],
   "note": "Slater-Koster hoppings are Hermitian"
  },
  {
   "property": "C42",
   "status": "proved",
   "theorems": [
    "Verif.Props.C42_soc",
    "Verif.Props.C42_table2",
    "Verif.Props.C42_table",
    "Verif.Props.C42_errors",
    "Verif.Props.C42_hermitian",
    "Verif.Props.C42_spectrum_p",
    "Verif.Props.C42_spectrum_d"
   ],
   "note": "The three spin-orbit implementations agree"
  },
  {
   "property": "C43",
   "status": "partial",
   "theorems": [
    "Verif.Props.C43_split_range",
    "Verif.Props.C43_split_list_partial",
    "Verif.Props.C43_split_list_refused",
    "Verif.Props.C43_dist_bound"
   ],
   "note": "split_range is a partition for every number of groups; split_list_partial: proved for at most as many groups as items, more are refused (C43_split_list_refused)."
  },
  {
   "property": "C44",
   "status": "proved",
   "theorems": [
    "Verif.Props.C44_states",
    "Verif.Props.C44_states_local",
    "Verif.Props.C44_bands",
    "Verif.Props.C44_bands_sorted",
    "Verif.Props.C44_dos",
    "Verif.Props.C44_process_count"
   ],
   "note": "Parallel band/state calculation equals the serial one"
  },
  {
   "property": "C45",
   "status": "partial",
   "theorems": [
    "Verif.Props.C45_rows",
    "Verif.Props.C45_partial",
    "Verif.Props.C45_wrong",
    "Verif.Props.C45_refused",
    "Verif.Props.C45_wrong_example"
   ],
   "note": "C45_partial: proved for one process or one q-point; false for several q-points on several processes (C45_wrong, C45_wrong_example), and refused with more processes than k-points (C45_refused). C45_rows gives the exact values returned."
  },
  {
   "property": "C46",
   "status": "proved",
   "theorems": [
    "Verif.Props.C46_samples",
    "Verif.Props.C46_seeds_distinct",
    "Verif.Props.C46_seed_zero",
    "Verif.Props.C46_average"
   ],
   "note": "Random samples are distributed evenly and averaged correctly"
  },
  {
   "property": "C47",
   "status": "proved",
   "theorems": [
    "Verif.Props.C47_mesh",
    "Verif.Props.C47_target",
    "Verif.Props.C47_bijection"
   ],
   "note": "k+q mapping on a regular mesh is a permutation landing on k+q"
  },
  {
   "property": "C48",
   "status": "proved",
   "theorems": [
    "Verif.Props.C48_frac",
    "Verif.Props.C48_frac_rounding_loop",
    "Verif.Props.C48_grid"
   ],
   "note": "q-vectors are wrapped into the first cell"
  },
  {
   "property": "C49",
   "status": "proved",
   "theorems": [
    "Verif.Props.C49_agree"
   ],
   "note": "Regular and arbitrary q algorithms agree on mesh points"
  },
  {
   "property": "C50",
   "status": "proved",
   "theorems": [
    "Verif.Props.C50_velocity"
   ],
   "note": "The velocity matrix is the k-derivative of the Hamiltonian"
  },
  {
   "property": "C51",
   "status": "proved",
   "theorems": [
    "Verif.C51_loop",
    "Verif.C51_processes",
    "Verif.C51_unitary",
    "Verif.C51_gauge",
    "Verif.C51_sorted",
    "Verif.C51_phase"
   ],
   "note": "Wilson-loop phases do not depend on the eigenvector gauge"
  },
  {
   "property": "C52",
   "status": "partial",
   "theorems": [
    "Verif.C52_parity_partial",
    "Verif.C52_bands",
    "Verif.C52_total_partial",
    "Verif.C52_on_reference"
   ],
   "note": "Proved for phases different from the reference; false when a phase equals it (C52_on_reference)."
  },
  {
   "property": "C53",
   "status": "partial",
   "theorems": [
    "Verif.C53_values_partial",
    "Verif.C53_continuity",
    "Verif.C53_no_jumps",
    "Verif.C53_permutation_partial",
    "Verif.C53_duplicates"
   ],
   "note": "Every phase returned is one of the row up to 2 pi (C53_values_partial); a permutation only for rows changed in full (C53_permutation_partial), in general false (C53_duplicates)."
  },
  {
   "property": "C54",
   "status": "partial",
   "theorems": [
    "Verif.Tbpm.C54_timestep_partial",
    "Verif.Tbpm.C54_short_series"
   ],
   "note": "Proved for series of at least three coefficients; with fewer the program reads beyond the series (C54_short_series)."
  },
  {
   "property": "C55",
   "status": "partial",
   "theorems": [
    "Verif.Tbpm.C55_fermi_partial",
    "Verif.Tbpm.C55_eigenstate",
    "Verif.Tbpm.C55_short_series"
   ],
   "note": "Proved for series of at least three coefficients; with fewer the program reads beyond the series (C55_short_series)."
  },
  {
   "property": "C56",
   "status": "proved",
   "theorems": [
    "Verif.Tbpm.C56_chain"
   ],
   "note": "The Haydock recursion produces a Lanczos chain"
  },
  {
   "property": "C57",
   "status": "proved",
   "theorems": [
    "Verif.Tbpm.C57_green",
    "Verif.Tbpm.C57_exact",
    "Verif.Tbpm.C57_ldos",
    "Verif.Tbpm.C57_breakdown",
    "Verif.Tbpm.C57_single_site"
   ],
   "note": "The local density of states from the recursion is non-negative"
  },
  {
   "property": "C58",
   "status": "proved",
   "theorems": [
    "Verif.Tbpm.C58_snapshots",
    "Verif.Tbpm.C58_refused",
    "Verif.Tbpm.C58_accepted"
   ],
   "note": "Rows are ordered by time and repeated times appear once, whatever the order of the request. The initial state must be nonzero and the Bessel series must have at least three terms."
  },
  {
   "property": "C59",
   "status": "proved",
   "theorems": [
    "Verif.Tbpm.C59_series",
    "Verif.Tbpm.C59_error"
   ],
   "note": "The Bessel series is the convergent prefix"
  },
  {
   "property": "C60",
   "status": "partial",
   "theorems": [
    "Verif.Tbpm.C60_check_partial",
    "Verif.Tbpm.C60_never",
    "Verif.Tbpm.C60_not_periodic"
   ],
   "note": "The documented periodic check does not exist: C60_not_periodic and C60_never; C60_check_partial gives the exact condition under which a DOS or LDOS run stops."
  },
  {
   "property": "C61",
   "status": "proved",
   "theorems": [
    "Verif.Analysis.C61_transform",
    "Verif.Analysis.C61_integral",
    "Verif.Analysis.C61_refused"
   ],
   "note": "DOS from the correlation function is normalised and uses every correlation value"
  },
  {
   "property": "C62",
   "status": "proved",
   "theorems": [
    "Verif.Tbpm.C62_value",
    "Verif.Tbpm.C62_properties"
   ],
   "note": "The Fermi-Dirac function is evaluated without overflow and correctly"
  },
  {
   "property": "C63",
   "status": "proved",
   "theorems": [
    "Verif.Fft.C63_dft",
    "Verif.Fft.C63_inverse"
   ],
   "note": "The built-in FFT computes the discrete Fourier transform"
  },
  {
   "property": "C64",
   "status": "proved",
   "theorems": [
    "Verif.Tbpm.C64_moments",
    "Verif.Tbpm.C64_operator",
    "Verif.Tbpm.C64_direction"
   ],
   "note": "Kubo-Bastin moments are Chebyshev moments"
  },
  {
   "property": "C65",
   "status": "proved",
   "theorems": [
    "Verif.Analysis.C65_initial"
   ],
   "note": "AC conductivity does not depend on the unset initial correlation value"
  },
  {
   "property": "C66",
   "status": "partial",
   "theorems": [
    "Verif.Props.C66_images_partial",
    "Verif.Props.C66_meeting_terms_lost",
    "Verif.Props.C66_missing_term"
   ],
   "note": "Proved for tables whose images do not meet (every image is written once); negations C66_meeting_terms_lost (equivalent cells that meet lose weight) and C66_missing_term."
  },
  {
   "property": "C67",
   "status": "partial",
   "theorems": [
    "Verif.Props.C67_seeds_partial",
    "Verif.Props.C67_too_few",
    "Verif.Props.C67_never_more",
    "Verif.Props.C67_negative"
   ],
   "note": "Distinct 32-bit seeds proved for every random source; negations: too few seeds for every n >= 2, never more than 2^32, and negative seeds."
  },
  {
   "property": "C68",
   "status": "proved",
   "theorems": [
    "Verif.Props.C68_values",
    "Verif.Props.C68_bound",
    "Verif.Props.C68_odd_refused",
    "Verif.Props.C68_projection"
   ],
   "note": "Spin texture values are bounded and the band projections normalised"
  },
  {
   "property": "C69",
   "status": "proved",
   "theorems": [
    "Verif.Tbpm.C69_product",
    "Verif.Tbpm.C69_update",
    "Verif.Tbpm.C69_aliasing",
    "Verif.Tbpm.C69_sample",
    "Verif.Tbpm.C69_sample_hermitian"
   ],
   "note": "Sparse matrix-vector kernels compute the mathematical operation"
  },
  {
   "property": "C70",
   "status": "proved",
   "theorems": [
    "Verif.Props.C70_search",
    "Verif.Props.C70_opposite",
    "Verif.Props.C70_prim",
    "Verif.Props.C70_super"
   ],
   "note": "Neighbour search finds every pair exactly once"
  },
  {
   "property": "C71",
   "status": "partial",
   "theorems": [
    "Verif.Props.C71_tables_fresh_partial",
    "Verif.Props.C71_stale_tables"
   ],
   "note": "Proved while the primitive cell stays locked and hashes do not collide; C71_stale_tables is a history with an unlocked cell."
  },
  {
   "property": "C72",
   "status": "partial",
   "theorems": [
    "Verif.Props.C72_modifier_shifted",
    "Verif.Props.C72_trim_nothing_partial"
   ],
   "note": "Proved for trim; C72_modifier_shifted shows that add_vacancies leaves modifier indices unshifted."
  },
  {
   "property": "C73",
   "status": "proved",
   "theorems": [
    "Verif.C73_kdist",
    "Verif.C73_kdist_total"
   ],
   "note": "Distances along a k-path"
  },
  {
   "property": "C74",
   "status": "proved",
   "theorems": [
    "Verif.Props.C74_reset_lattice"
   ],
   "note": "Under the same no-collision hypothesis on hash as C08."
  },
  {
   "property": "C75",
   "status": "proved",
   "theorems": [
    "Verif.Props.C75_plain_map"
   ],
   "note": "InterHopping behaves as a plain map"
  },
  {
   "property": "C76",
   "status": "proved",
   "theorems": [
    "Verif.Props.C76_dyn_pol",
    "Verif.Props.C76_ac_cond"
   ],
   "note": "The Fortran and Cython backends agree"
  },
  {
   "property": "C77",
   "status": "proved",
   "theorems": [
    "Verif.Props.C77_mesh",
    "Verif.Props.C77_kubo",
    "Verif.Props.C77_refused"
   ],
   "note": "AC conductivity is the Kubo-Greenwood sum, for any number of processes"
  },
  {
   "property": "C78",
   "status": "proved",
   "theorems": [
    "Verif.Props.C78_assign",
    "Verif.Props.C78_action",
    "Verif.Props.C78_adjoint",
    "Verif.Props.C78_commutator",
    "Verif.Props.C78_casimir"
   ],
   "note": "Atomic orbitals obey the angular momentum algebra"
  },
  {
   "property": "C79",
   "status": "proved",
   "theorems": [
    "Verif.Tbpm.C79_adjoint",
    "Verif.Tbpm.C79_eigenstate",
    "Verif.Tbpm.C79_commutes"
   ],
   "note": "The backward propagation step is the adjoint of the forward one"
  },
  {
   "property": "C80",
   "status": "proved",
   "theorems": [
    "Verif.Tbpm.C80_random_state",
    "Verif.Tbpm.C80_site_state",
    "Verif.Tbpm.C80_repeated_site"
   ],
   "note": "Random initial states are normalised"
  },
  {
   "property": "C81",
   "status": "proved",
   "theorems": [
    "Verif.Tbpm.C81_dos",
    "Verif.Tbpm.C81_ldos",
    "Verif.Tbpm.C81_ldos_state",
    "Verif.Tbpm.C81_parallel",
    "Verif.Tbpm.C81_start"
   ],
   "note": "DOS and LDOS correlation functions are sample means of <psi|U^t|psi>"
  },
  {
   "property": "C82",
   "status": "proved",
   "theorems": [
    "Verif.Tbpm.C82_quasi_eigenstates",
    "Verif.Tbpm.C82_normalised"
   ],
   "note": "Quasi-eigenstates are normalised probabilities of the filtered states"
  },
  {
   "property": "C83",
   "status": "proved",
   "theorems": [
    "Verif.Tbpm.C83_ac",
    "Verif.Tbpm.C83_dyn_pol"
   ],
   "note": "AC and polarization correlation functions have the documented form"
  },
  {
   "property": "C84",
   "status": "proved",
   "theorems": [
    "Verif.Tbpm.C84_current",
    "Verif.Tbpm.C84_commutator"
   ],
   "note": "The current operator of a sample is Hermitian"
  },
  {
   "property": "C85",
   "status": "proved",
   "theorems": [
    "Verif.Tbpm.C85_dc"
   ],
   "note": "DC correlation functions have the documented form"
  },
  {
   "property": "C86",
   "status": "proved",
   "theorems": [
    "Verif.Analysis.C86_optical"
   ],
   "note": "Optical conductivity is the Kubo integral of the correlation function"
  },
  {
   "property": "C87",
   "status": "proved",
   "theorems": [
    "Verif.Analysis.C87_polarization",
    "Verif.Analysis.C87_epsilon",
    "Verif.Analysis.C87_q0"
   ],
   "note": "Polarization and dielectric function follow their formulas"
  },
  {
   "property": "C88",
   "status": "proved",
   "theorems": [
    "Verif.Analysis.C88_dc",
    "Verif.Analysis.C88_diffusion"
   ],
   "note": "DC conductivity and diffusion coefficient use the selected energies and the DOS at them"
  },
  {
   "property": "C89",
   "status": "proved",
   "theorems": [
    "Verif.Analysis.C89_hall",
    "Verif.Analysis.C89_real"
   ],
   "note": "Hall conductivity is the Kubo-Bastin sum, independent of the threads"
  },
  {
   "property": "C90",
   "status": "partial",
   "theorems": [
    "Verif.Analysis.C90_dos_partial",
    "Verif.Analysis.C90_ac_partial",
    "Verif.Analysis.C90_dyn_pol_partial",
    "Verif.Analysis.C90_hall_partial",
    "Verif.Analysis.C90_dc_not_doubled"
   ],
   "note": "Proved for DOS, optical conductivity, polarization and Hall conductivity. False for the DC conductivity: C90_dc_not_doubled proves that it is multiplied by 4, because calc_dos has doubled the DOS already."
  },
  {
   "property": "C91",
   "status": "proved",
   "theorems": [
    "Verif.Fft.C91_coefficients",
    "Verif.Fft.C91_complement",
    "Verif.Fft.C91_truncation"
   ],
   "note": "The Fermi operator is expanded with the right Chebyshev coefficients"
  },
  {
   "property": "C92",
   "status": "proved",
   "theorems": [
    "Verif.Props.C92_hoppings",
    "Verif.Props.C92_wsvec",
    "Verif.Props.C92_wsvec_truncated",
    "Verif.Props.C92_centres",
    "Verif.Props.C92_lattice"
   ],
   "note": "Wannier90 files are read back exactly"
  },
  {
   "property": "C93",
   "status": "partial",
   "theorems": [
    "Verif.Props.C93_wan2pc",
    "Verif.Props.C93_wan2pc_corrected_partial"
   ],
   "note": "C93_wan2pc without wsvec correction in full; with the correction under the no-overlap condition of C66."
  },
  {
   "property": "C94",
   "status": "partial",
   "theorems": [
    "Verif.Props.C94_texture_partial",
    "Verif.Props.C94_stale_cell",
    "Verif.Props.C94_failed_update",
    "Verif.Props.C94_stale_cell_wrong"
   ],
   "note": "Proved for changes of the k-grid when all grids can be diagonalised and hashes do not collide; negations: the cell changes (C94_stale_cell), an evaluation fails (C94_failed_update)."
  },
  {
   "property": "C95",
   "status": "partial",
   "theorems": [
    "Verif.Props.C95_reshape_partial",
    "Verif.Props.C95_hetero",
    "Verif.Props.C95_singular",
    "Verif.Props.C95_large_loses_orbitals",
    "Verif.Props.C95_oblique_loses_orbitals",
    "Verif.Props.C95_outside_loses_orbitals",
    "Verif.Props.C95_same_crystal_partial"
   ],
   "note": "Proved when orbital positions lie in [0,1), every column of L has a zero entry (all two-dimensional cells) and delta times the column sums is at most 1; outside these limits orbitals are lost (C95_large_loses_orbitals, C95_oblique_loses_orbitals, C95_outside_loses_orbitals)."
  },
  {
   "property": "C96",
   "status": "partial",
   "theorems": [
    "Verif.Props.C96_folding_partial",
    "Verif.Props.C96_bloch_vectors",
    "Verif.Props.C96_spectrum_partial"
   ],
   "note": "Under the restrictions of C95; the folded states are eigenstates (C96_folding_partial) and exhaust the spectrum (C96_spectrum_partial)."
  },
  {
   "property": "C97",
   "status": "proved",
   "theorems": [
    "Verif.Props.C97_spiral",
    "Verif.Props.C97_empty",
    "Verif.Props.C97_distances"
   ],
   "note": "Spiralling a cell is a rigid motion"
  },
  {
   "property": "C98",
   "status": "partial",
   "theorems": [
    "Verif.Props.C98_honeycomb",
    "Verif.Props.C98_bands",
    "Verif.Props.C98_dirac",
    "Verif.Props.C98_rect_crystal_partial",
    "Verif.Props.C98_complex_t",
    "Verif.Props.C98_methods_partial",
    "Verif.Props.C98_c_ignored"
   ],
   "note": "C98_rect_crystal_partial and C98_methods_partial need real t (and c = 1 for the method by reshaping): for other t the two cells are different crystals (C98_complex_t), and from_scratch=False ignores c (C98_c_ignored)."
  },
  {
   "property": "C99",
   "status": "proved",
   "theorems": [
    "Verif.Props.C99_kane_mele",
    "Verif.Props.C99_time_reversal",
    "Verif.Props.C99_kramers",
    "Verif.Props.C99_symmetric"
   ],
   "note": "The graphene cell with spin-orbit coupling is the Kane-Mele model and has Kramers pairs"
  },
  {
   "property": "C100",
   "status": "proved",
   "theorems": [
    "Verif.Props.C100_black_phosphorus",
    "Verif.Props.C100_black_phosphorus_bands",
    "Verif.Props.C100_symmetry"
   ],
   "note": "Symmetries of a crystal are symmetries of its bands; black phosphorus is the ten-parameter model"
  },
  {
   "property": "C101",
   "status": "proved",
   "theorems": [
    "Verif.Props.C101_unitary",
    "Verif.Props.C101_intertwines",
    "Verif.Props.C101_antiunitary",
    "Verif.Props.C101_real",
    "Verif.Props.C101_degenerate"
   ],
   "note": "Symmetries that mix orbitals, and antiunitary symmetries, are symmetries of the bands"
  },
  {
   "property": "C102",
   "status": "partial",
   "theorems": [
    "Verif.Props.C102_last_write",
    "Verif.Props.C102_add",
    "Verif.Props.C102_refused_partial",
    "Verif.Props.C102_once",
    "Verif.Props.C102_not_atomic"
   ],
   "note": "C102_refused_partial: refusal without change is proved for locked cells and on-site elements of at least 1e-5; for smaller nonzero on-site elements it is false (C102_not_atomic)."
  },
  {
   "property": "C103",
   "status": "proved",
   "theorems": [
    "Verif.Props.C103_antimonene",
    "Verif.Props.C103_site_maps",
    "Verif.Props.C103_bands",
    "Verif.Props.C103_soc",
    "Verif.Props.C103_degenerate"
   ],
   "note": "make_antimonene is the fifteen-parameter model with all symmetries of the crystal"
  },
  {
   "property": "C104",
   "status": "proved",
   "theorems": [
    "Verif.Props.C104_container",
    "Verif.Props.C104_calls",
    "Verif.Props.C104_bands",
    "Verif.Props.C104_invariant",
    "Verif.Props.C104_empty_refused",
    "Verif.Props.C104_projection",
    "Verif.Props.C104_projection_not_one",
    "Verif.Props.C104_moved_orbital"
   ],
   "note": "Bands with an overlap are the solutions of the general eigenvalue problem"
  },
  {
   "property": "C105",
   "status": "proved",
   "theorems": [
    "Verif.Props.C105_toc",
    "Verif.Props.C105_reports",
    "Verif.Props.C105_bounded",
    "Verif.Props.C105_progress",
    "Verif.Props.C105_progress_end",
    "Verif.Props.C105_progress_count",
    "Verif.Props.C105_progress_zero"
   ],
   "note": "A timer reports exactly the time of its intervals; a progress bar reports at the multiples of its unit"
  },
  {
   "property": "C106",
   "status": "partial",
   "theorems": [
    "Verif.Props.C106_check_partial",
    "Verif.Props.C106_unchecked",
    "Verif.Props.C106_unchecked_witness",
    "Verif.Props.C106_missing",
    "Verif.Props.C106_read",
    "Verif.Props.C106_read_witness",
    "Verif.Props.C106_round_trip",
    "Verif.Props.C106_temperature",
    "Verif.Props.C106_defaults_partial",
    "Verif.Props.C106_bessel_max",
    "Verif.Props.C106_all_documented"
   ],
   "note": "C106_check_partial: proved for the groups generic, LDOS, dyn_pol and dckb; false for DC_conductivity and quasi_eigenstates (C106_unchecked, C106_unchecked_witness) and for configurations read from files (C106_read, C106_read_witness). C106_defaults_partial: proved for all parameters but Bessel_max (C106_bessel_max)."
  },
  {
   "property": "C107",
   "status": "proved",
   "theorems": [
    "Verif.Tbpm.C107_step",
    "Verif.Tbpm.C107_norm",
    "Verif.Tbpm.C107_psi_t",
    "Verif.Tbpm.C107_dos",
    "Verif.Tbpm.C107_ldos",
    "Verif.Tbpm.C107_no_drift",
    "Verif.Tbpm.C107_default",
    "Verif.Tbpm.C107_default_dos"
   ],
   "note": "Propagated states and correlation functions are those of the exact time evolution, up to a stated error"
  },
  {
   "property": "C108",
   "status": "proved",
   "theorems": [
    "Verif.Fft.C108_series",
    "Verif.Fft.C108_operator",
    "Verif.Fft.C108_eigenstate"
   ],
   "note": "The Fermi operator of the propagation method is the Fermi function of the Hamiltonian, up to a stated error"
  },
  {
   "property": "C109",
   "status": "proved",
   "theorems": [
    "Verif.Fft.C109_ac",
    "Verif.Fft.C109_dyn_pol",
    "Verif.Fft.C109_no_drift"
   ],
   "note": "Correlation functions of the optical conductivity and the dynamical polarization are the exact ones, up to a stated error"
  },
  {
   "property": "C110",
   "status": "proved",
   "theorems": [
    "Verif.Props.C110_crystal",
    "Verif.Props.C110_unknown",
    "Verif.Props.C110_parameters",
    "Verif.Props.C110_symmetric",
    "Verif.Props.C110_bands"
   ],
   "note": "make_tmdc is the published eleven-orbital model with all symmetries of the monolayer"
  },
  {
   "property": "C111",
   "status": "proved",
   "theorems": [
    "Verif.Props.C111_graphene_sp",
    "Verif.Props.C111_graphene_sp_symmetric",
    "Verif.Props.C111_graphene_sp_bands",
    "Verif.Props.C111_hoppings",
    "Verif.Props.C111_symmetric"
   ],
   "note": "Slater-Koster models have the symmetries of their atoms"
  },
  {
   "property": "C112",
   "status": "proved",
   "theorems": [
    "Verif.Props.C112_mos2",
    "Verif.Props.C112_bonds",
    "Verif.Props.C112_time_reversal",
    "Verif.Props.C112_kramers",
    "Verif.Props.C112_mirror",
    "Verif.Props.C112_not_hexagonal"
   ],
   "note": "make_mos2_soc is the documented model of MoS2 with exact Kramers pairs and mirror"
  },
  {
   "property": "C113",
   "status": "partial",
   "theorems": [
    "Verif.Props.C113_orbitals_partial",
    "Verif.Props.C113_nucleus",
    "Verif.Props.C113_zero",
    "Verif.Props.C113_s_any_m"
   ],
   "note": "C113_orbitals_partial: proved for grid points at least 1e-7 bohr away from the nucleus; at the nucleus the value is wrong for s orbitals (C113_nucleus)."
  },
  {
   "property": "C114",
   "status": "partial",
   "theorems": [
    "Verif.Props.C114_cube_partial",
    "Verif.Props.C114_default",
    "Verif.Props.C114_atoms",
    "Verif.Props.C114_conventions"
   ],
   "note": "C114_cube_partial: proved for grid points at least 1e-7 bohr away from all atoms (C113_nucleus shows the value there is wrong for s orbitals) and calls with rn_max (C114_default: without it the call fails)."
  },
  {
   "property": "C115",
   "status": "partial",
   "theorems": [
    "Verif.Props.C115_cell",
    "Verif.Props.C115_ends_partial",
    "Verif.Props.C115_view",
    "Verif.Props.C115_super_partial",
    "Verif.Props.C115_sample",
    "Verif.Props.C115_modifier_fails",
    "Verif.Props.C115_dangling"
   ],
   "note": "C115_cell, C115_sample, C115_view are complete. C115_ends_partial: ends of segments are dots if conjugates are drawn (C115_dangling: false otherwise). C115_super_partial: supercells without hopping modifier and with the identity position modifier (C115_modifier_fails: with a modifier that only overrides terms the call raises IndexError)."
  },
  {
   "property": "C116",
   "status": "partial",
   "theorems": [
    "Verif.Props.C116_square_partial",
    "Verif.Props.C116_not_square"
   ],
   "note": "C116_square_partial: square grids; C116_not_square: false for every grid that is not square."
  },
  {
   "property": "C117",
   "status": "proved",
   "theorems": [
    "Verif.Props.C117_convention2",
    "Verif.Props.C117_convention1",
    "Verif.Props.C117_close",
    "Verif.Props.C117_accepts"
   ],
   "note": "The formulae printed by print_hk are the Hamiltonian"
  },
  {
   "property": "C118",
   "status": "proved",
   "theorems": [
    "Verif.Props.C118_error",
    "Verif.Props.C118_fit",
    "Verif.Props.C118_scale",
    "Verif.Props.C118_accepts"
   ],
   "note": "Fitting minimises the weighted deviation of the bands"
  },
  {
   "property": "C119",
   "status": "partial",
   "theorems": [
    "Verif.Props.C119_words_partial",
    "Verif.Props.C119_repeats",
    "Verif.Props.C119_seeds_repeat",
    "Verif.Props.C119_default_repeats"
   ],
   "note": "C119_words_partial: the words are in range; the claim itself is false: C119_repeats (for every seed two sample numbers below 2^32 coincide), C119_seeds_repeat, C119_default_repeats (concrete pairs)."
  },
  {
   "property": "C120",
   "status": "partial",
   "theorems": [
    "Verif.Props.C120_sync",
    "Verif.Props.C120_inverse",
    "Verif.Props.C120_pc2sc",
    "Verif.Props.C120_sc2pc_partial",
    "Verif.Props.C120_sc2pc_negative",
    "Verif.Props.C120_sc2pc_array",
    "Verif.Props.C120_pc2sc_array_partial",
    "Verif.Props.C120_pc2sc_array_wraps"
   ],
   "note": "C120_sc2pc_partial: negative indices are excluded, they are silently counted from the end (C120_sc2pc_negative); C120_pc2sc_array_partial: elements have to fit in 32 bits, others are reduced modulo 2^32 before the check (C120_pc2sc_array_wraps)."
  },
  {
   "property": "C121",
   "status": "partial",
   "theorems": [
    "Verif.Props.C121_axis",
    "Verif.Props.C121_bands",
    "Verif.Props.C121_model",
    "Verif.Props.C121_wfc_partial",
    "Verif.Props.C121_wfc_fails",
    "Verif.Props.C121_vector"
   ],
   "note": "C121_wfc_partial: cells without hopping terms drawn with the model (the default) are excluded, for which the call fails (C121_wfc_fails). The model drawn along is treated for primitive cells, not for samples."
  },
  {
   "property": "C122",
   "status": "partial",
   "theorems": [
    "Verif.Output.C122_kept",
    "Verif.Output.C122_names",
    "Verif.Output.C122_seconds",
    "Verif.Output.C122_same_second_fails",
    "Verif.Output.C122_dc_fails",
    "Verif.Output.C122_crash_partial",
    "Verif.Output.C122_crash_loses",
    "Verif.Output.C122_samples_fails",
    "Verif.Output.C122_rerun",
    "Verif.Output.C122_parent_missing",
    "Verif.Output.C122_stale"
   ],
   "note": "C122_crash_partial: killed during the calculation itself, the file holds the old content or the first bytes of the new; that it may hold neither result is C122_crash_loses. Further exceptions: C122_same_second_fails, C122_dc_fails, C122_samples_fails, C122_parent_missing, C122_stale."
  },
  {
   "property": "C123",
   "status": "proved",
   "theorems": [
    "Verif.Props.C123_bloch",
    "Verif.Props.C123_tbpm",
    "Verif.Props.C123_ring"
   ],
   "note": "A periodic sample has the bands of its primitive cell"
  },
  {
   "property": "C124",
   "status": "proved",
   "theorems": [
    "Verif.Tbpm.C124_mean",
    "Verif.Tbpm.C124_variance",
    "Verif.Tbpm.C124_self_averaging",
    "Verif.Tbpm.C124_dos",
    "Verif.Tbpm.C124_ac",
    "Verif.Tbpm.C124_hall"
   ],
   "note": "Averages over random states estimate traces, with known error"
  },
  {
   "property": "C125",
   "status": "proved",
   "theorems": [
    "Verif.C125_density",
    "Verif.C125_weight",
    "Verif.C125_additive",
    "Verif.C125_energies"
   ],
   "note": "The density of states by diagonalization counts states"
  },
  {
   "property": "C126",
   "status": "proved",
   "theorems": [
    "Verif.Props.C126_new",
    "Verif.Props.C126_absorption",
    "Verif.Props.C126_real_current",
    "Verif.Props.C126_loss",
    "Verif.Props.C126_epsilon",
    "Verif.Props.C126_epsilon_list",
    "Verif.Props.C126_screening",
    "Verif.Props.C126_damping"
   ],
   "note": "C126_epsilon_list and the zero-frequency part of C126_loss record where the code fails"
  },
  {
   "property": "C127",
   "status": "partial",
   "theorems": [
    "Verif.C127_observables",
    "Verif.C127_gauges_partial",
    "Verif.C127_gauge2",
    "Verif.C127_origin",
    "Verif.C127_origin_k",
    "Verif.C127_reversal",
    "Verif.C127_ribbon_partial",
    "Verif.C127_ribbon_wrong_gauge"
   ],
   "note": "Gauges 0 and 1 of open samples are equivalent, as are all positions of the origin; gauge 2 is proved to be no field at all, and the wrong gauge of a periodic ladder is proved to miss the flux. The statement holds for the arrays handed to the solver, exact arithmetic."
  },
  {
   "property": "C128",
   "status": "proved",
   "theorems": [
    "Verif.Tbpm.C128_error",
    "Verif.Tbpm.C128_depth",
    "Verif.Tbpm.C128_ldos",
    "Verif.Tbpm.C128_local",
    "Verif.Tbpm.C128_nearsighted"
   ],
   "note": "The hypothesis on the spectrum is what C29 gives for samples of the program. If the recursion breaks down the program has no result (C57_breakdown), so the claims are about existing results."
  },
  {
   "property": "C129",
   "status": "partial",
   "theorems": [
    "Verif.Tbpm.C129_one_sample_partial",
    "Verif.Tbpm.C129_several_samples_wrong"
   ],
   "note": "Partial because the code violates the claim for two or more samples; the counterexample uses draws of the program's own random_state and holds at every broadening. Proved for one sample."
  },
  {
   "property": "C130",
   "status": "proved",
   "theorems": [
    "Verif.Analysis.C130_dos",
    "Verif.Analysis.C130_ldos",
    "Verif.Analysis.C130_near",
    "Verif.Analysis.C130_default"
   ],
   "note": "Random states are assumed normalised (what random_state returns, C124). Levels at the two ends of the energy range are the same point of the circle; this is how the program sees them."
  },
  {
   "property": "C131",
   "status": "partial",
   "theorems": [
    "Verif.C131_bands",
    "Verif.C131_dos_partial",
    "Verif.C131_default",
    "Verif.C131_dos_wrong"
   ],
   "note": "Partial because the code violates the claim on the density of states (normalised by the number of computed bands). eigsh is an argument with the contract that it returns k orthonormal eigenvectors, 0 < k < n; that the sparse matrix equals the dense one is C13."
  },
  {
   "property": "C132",
   "status": "proved",
   "theorems": [
    "Verif.Analysis.C132_isolated",
    "Verif.Analysis.C132_empty",
    "Verif.Analysis.C132_no_drift",
    "Verif.Analysis.C132_default"
   ],
   "note": "Energies are compared on a circle whose circumference is the energy range, as in C130. The random states are arguments; the theorems assume a lower bound on their overlap with the level."
  },
  {
   "property": "C133",
   "status": "proved",
   "theorems": [
    "Verif.Tbpm.C133_ldos",
    "Verif.Tbpm.C133_analysis",
    "Verif.Tbpm.C133_terms",
    "Verif.Tbpm.C133_default"
   ],
   "note": "The energy ranges (rescale) of the two samples are set to the same value, as with a rescale given by the user. The bound on the number of terms of the series is a theorem (C133_terms)."
  },
  {
   "property": "C134",
   "status": "proved",
   "theorems": [
    "Verif.Tbpm.C134_corr_dos",
    "Verif.Tbpm.C134_corr_ldos",
    "Verif.Tbpm.C134_ldos_real",
    "Verif.Tbpm.C134_mirror",
    "Verif.Tbpm.C134_ldos",
    "Verif.Tbpm.C134_mean",
    "Verif.Tbpm.C134_recursion",
    "Verif.Tbpm.C134_recursion_even",
    "Verif.Props.C134_cell",
    "Verif.Props.C134_bands",
    "Verif.Props.C134_dos"
   ],
   "note": "Windows are real, eigensolvers keep the promise of LAPACK (ZheevSpec). The DOS of the time evolution is symmetric for the mean over random states and mirrored for mirrored states, not symmetric for one random state."
  },
  {
   "property": "C135",
   "status": "proved",
   "theorems": [
    "Verif.C135_order",
    "Verif.C135_bloch",
    "Verif.C135_rescale",
    "Verif.C135_magnetic",
    "Verif.C135_csr",
    "Verif.Tbpm.C135_corr_dos",
    "Verif.Tbpm.C135_corr_ldos",
    "Verif.Tbpm.C135_corr_ac",
    "Verif.Tbpm.C135_mean"
   ],
   "note": "The supercells are different objects (a supercell given twice is C27's business), inter-hoppings name existing orbitals, and both assemblies succeed. k-points are fractional with respect to the first supercell of the list: the theorem about Bloch Hamiltonians is for the same lattice."
  },
  {
   "property": "C136",
   "status": "proved",
   "theorems": [
    "Verif.Props.C136_bands",
    "Verif.Props.C136_dos",
    "Verif.Props.C136_cell",
    "Verif.Props.C136_merge",
    "Verif.C136_sample",
    "Verif.C136_sample_bloch",
    "Verif.C136_sample_csr",
    "Verif.Tbpm.C136_mean",
    "Verif.Tbpm.C136_ldos"
   ],
   "note": "The parts use the same lattice for the k-points, the same rescaling factor and the same Bessel coefficients. The statement about TBPM is about correlation functions: Analyzer.calc_dos then takes absolute values and normalises, which is not linear."
  },
  {
   "property": "C137",
   "status": "proved",
   "theorems": [
    "Verif.Omp.C137_loop",
    "Verif.Omp.C137_vector",
    "Verif.Omp.C137_csr",
    "Verif.Omp.C137_fft",
    "Verif.Omp.C137_energies",
    "Verif.Omp.C137_moments",
    "Verif.Omp.C137_write",
    "Verif.Omp.C137_reduction",
    "Verif.Omp.C137_private_needed"
   ],
   "note": "Every store is seen by all threads at once (sequential consistency), which makes no difference for loops without races. Exact arithmetic: in floating point, reductions and only they depend on the distribution. Products with input and output in the same array are races (C69_aliasing); the code never does that."
  },
  {
   "property": "C138",
   "status": "partial",
   "theorems": [
    "Verif.Mpi.C138_run",
    "Verif.Mpi.C138_script",
    "Verif.Mpi.C138_hang",
    "Verif.Mpi.C138_states",
    "Verif.Mpi.C138_bands",
    "Verif.Mpi.C138_dos",
    "Verif.Mpi.C138_phases",
    "Verif.Mpi.C138_ac_partial",
    "Verif.Mpi.C138_dyn_regular_partial",
    "Verif.Mpi.C138_dyn_arbitrary_partial",
    "Verif.Mpi.C138_corr",
    "Verif.Mpi.C138_corr_dos",
    "Verif.Mpi.C138_analysis_partial",
    "Verif.Mpi.C138_output_partial",
    "Verif.Mpi.C138_corr_dc",
    "Verif.Mpi.C138_dos_script",
    "Verif.Mpi.C138_ac_hangs",
    "Verif.Mpi.C138_dyn_arbitrary_hangs",
    "Verif.Mpi.C138_dyn_regular_hangs",
    "Verif.Mpi.C138_output_hangs",
    "Verif.Mpi.C138_analysis_hangs"
   ],
   "note": "Partial because the code hangs when a process raises (C138_ac_hangs, C138_dyn_regular_hangs, C138_dyn_arbitrary_hangs, C138_output_hangs, C138_analysis_hangs); the positive theorems assume that no process does. That the launcher may kill the other processes when one ends with an error is not modelled. Collective operations of different kind meeting each other block in the model. Two processes never write the same file in what is modelled; the log files of the Fortran core are left out."
  },
  {
   "property": "C139",
   "status": "proved",
   "theorems": [
    "Verif.Props.C139_bands",
    "Verif.Props.C139_dos",
    "Verif.Props.C139_dyn_regular",
    "Verif.Props.C139_dyn_arbitrary",
    "Verif.Props.C139_ac",
    "Verif.Props.C139_cell",
    "Verif.Props.C139_solver"
   ],
   "note": "Models without overlap; exact arithmetic. The eigensolver is any function that keeps LAPACK's promise of orthonormal eigenvectors."
  },
  {
   "property": "C140",
   "status": "partial",
   "theorems": [
    "Verif.Props.C140_dos",
    "Verif.Props.C140_dyn_pol_partial",
    "Verif.Props.C140_dyn_pol_wrong",
    "Verif.Props.C140_dos_example",
    "Verif.Props.C140_dyn_pol_example",
    "Verif.Props.C140_ac_partial",
    "Verif.Props.C140_ac_example"
   ],
   "note": "Models without overlap; exact arithmetic. C140_dos is complete. The code divides the polarization and the AC conductivity by `extended` although they are independent of the cell already: C140_dyn_pol_wrong; C140_dyn_pol_partial and C140_ac_partial show that the results times `extended` do not depend on the cell."
  },
  {
   "property": "C141",
   "status": "proved",
   "theorems": [
    "Verif.Props.C141_bands",
    "Verif.Props.C141_dyn_arbitrary",
    "Verif.Props.C141_dyn_regular",
    "Verif.Props.C141_ac",
    "Verif.Props.C141_built",
    "Verif.Props.C141_example"
   ],
   "note": "Models without overlap; exact arithmetic. Both runs use the same number of processes for the polarization (several q-points and processes are scaled wrongly, C45)."
  },
  {
   "property": "C142",
   "status": "proved",
   "theorems": [
    "Verif.Props.C142_bands",
    "Verif.Props.C142_dos",
    "Verif.Props.C142_dyn_arbitrary",
    "Verif.Props.C142_dyn_regular",
    "Verif.Props.C142_ac",
    "Verif.Props.C142_example"
   ],
   "note": "Models without overlap; exact arithmetic. Both runs of the polarization use the same number of processes."
  },
  {
   "property": "C143",
   "status": "partial",
   "theorems": [
    "Verif.Props.C143_bands",
    "Verif.Props.C143_dos",
    "Verif.Props.C143_dyn_arbitrary",
    "Verif.Props.C143_dyn_regular",
    "Verif.Props.C143_ac_partial",
    "Verif.Props.C143_cell",
    "Verif.Props.C143_ac_wrong",
    "Verif.Props.C143_example"
   ],
   "note": "Bands, DOS and polarization in full. The AC conductivity only if no difference of levels lies below the absolute threshold 1e-7 in one unit and above it in the other; otherwise the claim is false (C143_ac_wrong). Models without overlap; exact arithmetic; epsilon is not covered."
  },
  {
   "property": "C144",
   "status": "proved",
   "theorems": [
    "Verif.Props.C144_dyn_arbitrary",
    "Verif.Props.C144_dyn_regular",
    "Verif.Props.C144_ac",
    "Verif.Props.C144_epsilon",
    "Verif.Props.C144_cell",
    "Verif.Props.C144_example"
   ],
   "note": "Models without overlap; exact arithmetic. The three polarization runs use the same number of processes. Bands and densities of states are in C136."
  },
  {
   "property": "C145",
   "status": "partial",
   "theorems": [
    "Verif.Props.C145_uniform_arbitrary_partial",
    "Verif.Props.C145_uniform_regular_partial",
    "Verif.Props.C145_bound_partial",
    "Verif.Props.C145_example",
    "Verif.Props.C145_overlap_wrong"
   ],
   "note": "Proved for models without overlap; with an overlap a uniform potential polarizes (C145_overlap_wrong), because the scalar products of the states leave the overlap out. The bound is for one process or one q-point (C45)."
  },
  {
   "property": "C146",
   "status": "proved",
   "theorems": [
    "Verif.Props.C146_dyn_arbitrary",
    "Verif.Props.C146_dyn_regular",
    "Verif.Props.C146_ac",
    "Verif.Props.C146_neutral",
    "Verif.Props.C146_cell",
    "Verif.Props.C146_example"
   ],
   "note": "For models without overlap. The symmetry of bands and DOS is C134."
  },
  {
   "property": "C147",
   "status": "partial",
   "theorems": [
    "Verif.Props.C147_height_partial",
    "Verif.Props.C147_regular_partial",
    "Verif.Props.C147_tilted",
    "Verif.Props.C147_cell",
    "Verif.Props.C147_regular_example",
    "Verif.Props.C147_example",
    "Verif.Props.C147_tilted_wrong"
   ],
   "note": "Proved for third lattice vectors perpendicular to the layer; false for tilted ones (C147_tilted, C147_tilted_wrong), because the area of the layer is taken to be V/|c|."
  }
 ]
}