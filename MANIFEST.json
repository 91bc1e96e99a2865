{
 "claims": [
  {
   "property": "C01",
   "status": "proved",
   "theorems": [
    "TJ.C01_basis_enumerates",
    "TJ.C01_negative_counts"
   ],
   "note": ""
  },
  {
   "property": "C02",
   "status": "proved",
   "theorems": [
    "TJ.C02_dimension",
    "TJ.C02_dimension_value"
   ],
   "note": ""
  },
  {
   "property": "C03",
   "status": "proved",
   "theorems": [
    "TJ.C03_basis_sorted",
    "TJ.C03_order_strict"
   ],
   "note": ""
  },
  {
   "property": "C04",
   "status": "proved",
   "theorems": [
    "TJ.C04_index_is_position"
   ],
   "note": ""
  },
  {
   "property": "C05",
   "status": "proved",
   "theorems": [
    "TJ.C05_unrank",
    "TJ.C05_mutually_inverse"
   ],
   "note": ""
  },
  {
   "property": "C06",
   "status": "proved",
   "theorems": [
    "TJ.C06_index_of_any_det",
    "TJ.C06_order_inside_species"
   ],
   "note": ""
  },
  {
   "property": "C07",
   "status": "proved",
   "theorems": [
    "TJ.C07_target_hash"
   ],
   "note": ""
  },
  {
   "property": "C08",
   "status": "proved",
   "theorems": [
    "TJ.C08_reorder"
   ],
   "note": ""
  },
  {
   "property": "C09",
   "status": "proved",
   "theorems": [
    "TJ.C09_site_queries",
    "TJ.C09_errors",
    "TJ.C09_restricted"
   ],
   "note": ""
  },
  {
   "property": "C10",
   "status": "proved",
   "theorems": [
    "TJ.C10_reverse_spins",
    "TJ.C10_reverse_basis"
   ],
   "note": ""
  },
  {
   "property": "C11",
   "status": "proved",
   "theorems": [
    "TJ.C11_reverse_vect",
    "TJ.C11_preserves_dot"
   ],
   "note": ""
  },
  {
   "property": "C12",
   "status": "proved",
   "theorems": [
    "TJ.C12_extend"
   ],
   "note": ""
  },
  {
   "property": "C13",
   "status": "proved",
   "theorems": [
    "TJ.C13_rotation",
    "TJ.C13_basis",
    "TJ.C13_compose",
    "TJ.C13_inverse",
    "TJ.C13_bonds",
    "TJ.C13_not_square"
   ],
   "note": ""
  },
  {
   "property": "C14",
   "status": "proved",
   "theorems": [
    "TJ.C14_rectangular"
   ],
   "note": ""
  },
  {
   "property": "C15",
   "status": "proved",
   "theorems": [
    "TJ.C15_peripheral",
    "TJ.C15_sides"
   ],
   "note": ""
  },
  {
   "property": "C16",
   "status": "proved",
   "theorems": [
    "TJ.C16_two_blocks",
    "TJ.C16_relabelled"
   ],
   "note": ""
  },
  {
   "property": "C17",
   "status": "proved",
   "theorems": [
    "TJ.C17_bond_list_restricted",
    "TJ.C17_bond_list",
    "TJ.C17_list_restriction_fails"
   ],
   "note": ""
  },
  {
   "property": "C18",
   "status": "proved",
   "theorems": [
    "TJ.C18_neighbors",
    "TJ.C18_outside",
    "TJ.C18_second_neighbors"
   ],
   "note": ""
  },
  {
   "property": "C19",
   "status": "proved",
   "theorems": [
    "TJ.C19_rectangular_linear"
   ],
   "note": ""
  },
  {
   "property": "C20",
   "status": "partial",
   "theorems": [
    "TJ.C20_right_iff",
    "TJ.C20_peripheral_linear_partial",
    "TJ.C20_thin_fails"
   ],
   "note": "fails on one-site-wide lattices (witness proved); proved otherwise Exact condition: right for all triples if and only if the block has at least two rows and two columns (C20_right_iff)."
  },
  {
   "property": "C21",
   "status": "proved",
   "theorems": [
    "TJ.C21_accepted_relabels",
    "TJ.C21_collinear",
    "TJ.C21_simple_spectrum",
    "TJ.C21_two_blocks",
    "TJ.C21_degenerate_fails"
   ],
   "note": "The search is modelled (Model/Clusters); exact eigh is any EighOf, the rounding any Rounds of precision 3 n^2 eps < 1 (round_rounds shows round(x, 10) is one). C21_simple_spectrum gives a sufficient condition for success; C21_degenerate_fails shows that with equal eigenvalues the search can fail and the test raise IndexError. C21_two_blocks: the configurations of embedding_blocks are covered."
  },
  {
   "property": "C22",
   "status": "proved",
   "theorems": [
    "TJ.C22_diagonal_restricted",
    "TJ.C22_diagonal",
    "TJ.C22_rectangular_diagonal"
   ],
   "note": ""
  },
  {
   "property": "C23",
   "status": "proved",
   "theorems": [
    "TJ.C23_errors",
    "TJ.C23_rejects"
   ],
   "note": ""
  },
  {
   "property": "C24",
   "status": "proved",
   "theorems": [
    "TJ.C24_hopping"
   ],
   "note": ""
  },
  {
   "property": "C25",
   "status": "proved",
   "theorems": [
    "TJ.C25_next_hopping",
    "TJ.C25_next_hopping_plane"
   ],
   "note": ""
  },
  {
   "property": "C26",
   "status": "proved",
   "theorems": [
    "TJ.C26_static_plane",
    "TJ.C26_static",
    "TJ.C26_static_opposite"
   ],
   "note": ""
  },
  {
   "property": "C27",
   "status": "proved",
   "theorems": [
    "TJ.C27_spin_flip",
    "TJ.C27_same_class",
    "TJ.C27_peripheral_disagree"
   ],
   "note": ""
  },
  {
   "property": "C28",
   "status": "proved",
   "theorems": [
    "TJ.C28_singlet",
    "TJ.C28_singlet_plane"
   ],
   "note": ""
  },
  {
   "property": "C29",
   "status": "proved",
   "theorems": [
    "TJ.C29_repulsion_plane",
    "TJ.C29_repulsion"
   ],
   "note": ""
  },
  {
   "property": "C30",
   "status": "proved",
   "theorems": [
    "TJ.C30_no_failure"
   ],
   "note": ""
  },
  {
   "property": "C31",
   "status": "proved",
   "theorems": [
    "TJ.C31_matrix_elements"
   ],
   "note": "The matrix elements are those of the code without fermionic signs; C127 says when they agree with fermions."
  },
  {
   "property": "C32",
   "status": "proved",
   "theorems": [
    "TJ.C32_symmetric"
   ],
   "note": ""
  },
  {
   "property": "C33",
   "status": "proved",
   "theorems": [
    "TJ.C33_spin_reversal"
   ],
   "note": ""
  },
  {
   "property": "C34",
   "status": "proved",
   "theorems": [
    "TJ.C34_rotation_invariant"
   ],
   "note": ""
  },
  {
   "property": "C35",
   "status": "proved",
   "theorems": [
    "TJ.C35_additive",
    "TJ.C35_combination",
    "TJ.C35_all_off",
    "TJ.C35_restriction_unused",
    "TJ.C35_linear"
   ],
   "note": ""
  },
  {
   "property": "C36",
   "status": "proved",
   "theorems": [
    "TJ.C36_energy_is_diagonal",
    "TJ.C36_zero_diagonal"
   ],
   "note": ""
  },
  {
   "property": "C37",
   "status": "partial",
   "theorems": [
    "TJ.C37_dynamic_partial",
    "TJ.C37_dynamic_without_flips_partial",
    "TJ.C37_spin_flip_doubled",
    "TJ.C37_right_iff"
   ],
   "note": "The full claim is false with the spin flips on: the dictionary holds J where the matrix holds J/2 (C37_spin_flip_doubled). Proved: values = matrix elements + flip part once more, exact when bij is off. Exact condition per determinant: the dictionary is right if and only if the flips are off or every bond of the determinant with opposite spins has a zero coupling (C37_right_iff)."
  },
  {
   "property": "C38",
   "status": "partial",
   "theorems": [
    "TJ.C38_conserves_total_spin",
    "TJ.C38_commutes_partial",
    "TJ.C38_eigenspaces_partial",
    "TJ.C38_wherever_right_partial",
    "TJ.C38_cpython_partial"
   ],
   "note": "Commutation with the total spin operator (3/4 per electron + exchange - 1/2 per pair) is proved without condition (C38_conserves_total_spin). Commutation with the output of compute_S2 needs the set order to list hole sites increasingly, because compute_S2 may otherwise raise IndexError (C39_set_order_matters); always true with at most one hole. For the order CPython uses, C81 tells exactly which lattices are concerned. Extended to parallel spins, the exact condition under which compute_S2 is the total spin operator: C38_wherever_right_partial, in numbers for CPython C38_cpython_partial."
  },
  {
   "property": "C39",
   "status": "partial",
   "theorems": [
    "TJ.C39_s_plus_s_minus_partial",
    "TJ.C39_one_hole_in_order",
    "TJ.C39_increasing_in_order",
    "TJ.C39_set_order_matters",
    "TJ.C39_right_iff"
   ],
   "note": "The full claim (whatever the set order) is false: C39_set_order_matters, 3x3 lattice, two holes, the order CPython uses for {1, 8}. Proved when hole sites are listed increasingly; this holds for every set order with at most one hole. For the order CPython uses, C81 tells exactly which lattices are concerned. C39_right_iff: for every set order the claim holds exactly with parallel spins or when hole sites are listed increasingly."
  },
  {
   "property": "C40",
   "status": "partial",
   "theorems": [
    "TJ.C40_total_spin_partial",
    "TJ.C40_total_spin_iff",
    "TJ.C40_symmetric_partial",
    "TJ.C40_lower_bound_partial",
    "TJ.C40_parallel"
   ],
   "note": "Proved under the hypothesis HolesInOrder of C39 (always true with at most one hole); without it compute_S2 can raise IndexError. C40_total_spin_iff: for every set order, compute_S2 is the total spin operator exactly with parallel spins (C40_parallel, no hypothesis on the order) or under HolesInOrder, so the hypothesis cannot be weakened. For the order CPython uses, C81 tells exactly which lattices are concerned."
  },
  {
   "property": "C41",
   "status": "proved",
   "theorems": [
    "TJ.C41_spin_number_exact",
    "TJ.C41_spin_number_rounded",
    "TJ.C41_index_error",
    "TJ.C41_multiplicity_name",
    "TJ.C41_always_a_number"
   ],
   "note": ""
  },
  {
   "property": "C42",
   "status": "proved",
   "theorems": [
    "TJ.C42_probabilities",
    "TJ.C42_reverse",
    "TJ.C42_wrong_spin"
   ],
   "note": ""
  },
  {
   "property": "C43",
   "status": "partial",
   "theorems": [
    "TJ.C43_right_iff",
    "TJ.C43_placement_partial",
    "TJ.C43_sum_partial",
    "TJ.C43_sum_is_inverse_norm",
    "TJ.C43_errors",
    "TJ.C43_not_normalised"
   ],
   "note": "The full claim is false: the probability is divided by the squared norm twice, so the three species sum to 1/norm^2 (C43_sum_is_inverse_norm, C43_not_normalised). Proved: placement and value for all vectors, sum 1 for normalised vectors, errors. Exact condition: the arrays are the probabilities if and only if the vector has norm 1 (C43_right_iff)."
  },
  {
   "property": "C44",
   "status": "partial",
   "theorems": [
    "TJ.C44_right_iff",
    "TJ.C44_dominant_partial",
    "TJ.C44_moduli_partial",
    "TJ.C44_ties_repeat"
   ],
   "note": "The full claim is false for coefficients of equal modulus (C44_ties_repeat: a determinant twice, wrong sign). Exact condition: the result is right if and only if the largest coefficients have different moduli (C44_right_iff). Number and moduli of the results for all vectors. For symmetric states see C136."
  },
  {
   "property": "C45",
   "status": "proved",
   "theorems": [
    "TJ.C45_most_dominant"
   ],
   "note": ""
  },
  {
   "property": "C46",
   "status": "partial",
   "theorems": [
    "TJ.C46_display_partial",
    "TJ.C46_display_determines_index_partial",
    "TJ.C46_displayable_basis_fails",
    "TJ.C46_displayable_dominant_fails"
   ],
   "note": "get_displayable_determinant proved faithful; get_displayable_basis and get_displayable_dominant_determinants always raise AttributeError on non-empty input (C46_displayable_basis_fails, C46_displayable_dominant_fails)."
  },
  {
   "property": "C47",
   "status": "proved",
   "theorems": [
    "TJ.C47_rectangular_display",
    "TJ.C47_text_determines_occupation"
   ],
   "note": ""
  },
  {
   "property": "C48",
   "status": "proved",
   "theorems": [
    "TJ.C48_lowest"
   ],
   "note": ""
  },
  {
   "property": "C49",
   "status": "partial",
   "theorems": [
    "TJ.C49_corrections_partial",
    "TJ.C49_none_survives",
    "TJ.C49_right_iff"
   ],
   "note": "Holds whenever a correction survives. If none survives the function returns the search space itself (C49_none_survives), whose columns are not orthogonal to the search space. Exact condition: the result extends the search space if and only if one correction differs by more than droptol from every vector of the search space (C49_right_iff)."
  },
  {
   "property": "C50",
   "status": "proved",
   "theorems": [
    "TJ.C50_converged",
    "TJ.C50_no_failure",
    "TJ.C50_no_iterations"
   ],
   "note": ""
  },
  {
   "property": "C51",
   "status": "proved",
   "theorems": [
    "TJ.C51_ritz_bounds",
    "TJ.C51_unnormalised_guess"
   ],
   "note": "For nb_val = 1 the initial guess is not normalised; the side condition of the theorem is necessary (C51_unnormalised_guess)."
  },
  {
   "property": "C52",
   "status": "proved",
   "theorems": [
    "TJ.C52_search_space_bounded"
   ],
   "note": ""
  },
  {
   "property": "C53",
   "status": "partial",
   "theorems": [
    "TJ.C53_aligned_partial",
    "TJ.C53_simultaneous",
    "TJ.C53_aligned_iff",
    "TJ.C53_lost"
   ],
   "note": "Holds if no two residues are accepted in the same iteration. False otherwise: C53_simultaneous shows, for every exact library and every symmetric matrix, that with a block of full dimension all values are stored but only one vector. Exact condition, for every exact library and symmetric matrix: every returned value has a unit vector with residue within the tolerance if and only if no iteration accepts two residues (C53_aligned_iff, C53_lost)."
  },
  {
   "property": "C54",
   "status": "partial",
   "theorems": [
    "TJ.C54_same_iff",
    "TJ.C54_roundtrip_partial",
    "TJ.C54_bad_arrays",
    "TJ.C54_loaded_shape",
    "TJ.C54_missing_part",
    "TJ.C54_lattice_type_lost",
    "TJ.C54_restriction_unusable"
   ],
   "note": "All numerical content is restored; the lattice type is not (C54_lattice_type_lost) and the restored sites_restriction is a list of lists on which get_indexes_of always raises TypeError (C54_restriction_unusable). The compressed rows that are written stand for the Hamiltonian: C112. C54_bad_arrays: a stored Hamiltonian whose row pointers do not fit the other two arrays is refused by the check of csr_matrix; C54_loaded_shape: the arrays of every file that loads fit together and have the dimension of the stored configuration. Exact condition: C54_same_iff."
  },
  {
   "property": "C55",
   "status": "partial",
   "theorems": [
    "TJ.C55_small_lattices_partial",
    "TJ.C55_sweep_iff",
    "TJ.C55_sweep_partial",
    "TJ.C55_sweep_exact",
    "TJ.C55_collision",
    "TJ.C55_sweep_sizes",
    "TJ.C55_bz_invisible"
   ],
   "note": "Holds for lattices with at most 9 sites and for exactly the sweeps whose number of electrons satisfies DistinctNames (C55_sweep_exact, C55_sweep_sizes); false in general (C55_collision, C55_bz_invisible)."
  },
  {
   "property": "C56",
   "status": "partial",
   "theorems": [
    "TJ.C56_names_agree_iff_partial",
    "TJ.C56_wrong_file"
   ],
   "note": "The names agree exactly if the five encoded switches are on (C56_names_agree_iff_partial); counterexample C56_wrong_file."
  },
  {
   "property": "C57",
   "status": "proved",
   "theorems": [
    "TJ.C57_sweep"
   ],
   "note": ""
  },
  {
   "property": "C58",
   "status": "proved",
   "theorems": [
    "TJ.C58_pattern",
    "TJ.C58_antiferromagnetic"
   ],
   "note": ""
  },
  {
   "property": "C59",
   "status": "proved",
   "theorems": [
    "TJ.C59_border_update",
    "TJ.C59_every_iteration"
   ],
   "note": "The hypothesis that the diagonalisation gives non-zero vectors is discharged by C92_nonzero_vectors."
  },
  {
   "property": "C60",
   "status": "proved",
   "theorems": [
    "TJ.C60_neel",
    "TJ.C60_blocks",
    "TJ.C60_only_symmetric"
   ],
   "note": ""
  },
  {
   "property": "C61",
   "status": "proved",
   "theorems": [
    "TJ.C61_rotation_invariant"
   ],
   "note": ""
  },
  {
   "property": "C62",
   "status": "partial",
   "theorems": [
    "TJ.C62_conserved_iff",
    "TJ.C62_reversed_key_error",
    "TJ.C62_key",
    "TJ.C62_exchange_partial",
    "TJ.C62_reversed_fails"
   ],
   "note": "Proved for neighbours that are not reversed, and for reversed ones when the block has as many up as down spins. False otherwise: countsB takes the numbers from the block, so either particles are not conserved or the register has no such key; a concrete run raises ValueError (C62_reversed_fails), and C139 shows that with holes and different numbers of up and down spins every run raises. What the dynamic part adds when it does not raise: C106 and C107."
  },
  {
   "property": "C63",
   "status": "partial",
   "theorems": [
    "TJ.C63_converged_partial",
    "TJ.C63_no_iteration",
    "TJ.C63_neel_last_results",
    "TJ.C63_endless",
    "TJ.C63_one_diagonalisation",
    "TJ.C63_no_last_results",
    "TJ.C63_returned_iff"
   ],
   "note": "The last clause is false: after max_iter iterations embedding_blocks returns None (C63_no_last_results), and a diagonalisation without eigenvalue is repeated for ever (C63_endless). Proved: returned results are converged, at the first converged iteration, at most max_iter iterations, one diagonalisation each when the solver finds an eigenvalue. C63_returned_iff: a run that ends gives its results exactly if one of the changes was small."
  },
  {
   "property": "C64",
   "status": "proved",
   "theorems": [
    "TJ.C64_levels",
    "TJ.C64_segments"
   ],
   "note": ""
  },
  {
   "property": "C65",
   "status": "proved",
   "theorems": [
    "TJ.C65_curve"
   ],
   "note": ""
  },
  {
   "property": "C66",
   "status": "proved",
   "theorems": [
    "TJ.C66_neighbor_display"
   ],
   "note": ""
  },
  {
   "property": "C67",
   "status": "proved",
   "theorems": [
    "TJ.C67_lowest_value_decreases",
    "TJ.C67_guess"
   ],
   "note": ""
  },
  {
   "property": "C68",
   "status": "proved",
   "theorems": [
    "TJ.C68_near_eigenvalue"
   ],
   "note": ""
  },
  {
   "property": "C69",
   "status": "proved",
   "theorems": [
    "TJ.C69_converges"
   ],
   "note": ""
  },
  {
   "property": "C70",
   "status": "proved",
   "theorems": [
    "TJ.C70_returns_converged",
    "TJ.C70_zero_steps_loop"
   ],
   "note": ""
  },
  {
   "property": "C71",
   "status": "partial",
   "theorems": [
    "TJ.C71_right_iff",
    "TJ.C71_gram_schmidt_partial",
    "TJ.C71_rectangular_fails"
   ],
   "note": "Proved for square arrays; with fewer columns than rows the function always raises IndexError (C71_rectangular_fails). Exact condition for independent columns: right if and only if the array is square (C71_right_iff)."
  },
  {
   "property": "C72",
   "status": "partial",
   "theorems": [
    "TJ.C72_sweep_loses_lattice_type",
    "TJ.C72_sweep_periodic_partial",
    "TJ.C72_sweep_iff"
   ],
   "note": "Only periodic lattices keep their type; C72_sweep_loses_lattice_type shows that all others lose it. Exact condition: C72_sweep_iff."
  },
  {
   "property": "C73",
   "status": "proved",
   "theorems": [
    "TJ.C73_neel_dressing"
   ],
   "note": "The hypothesis that the diagonalisation gives non-zero vectors is discharged by C92_nonzero_vectors."
  },
  {
   "property": "C74",
   "status": "proved",
   "theorems": [
    "TJ.C74_static_dressing",
    "TJ.C74_search_geometry"
   ],
   "note": "proved from geometric positions of the two blocks; C74_search_geometry derives that hypothesis for the relabelling search when the spectrum of the bond matrix is simple The hypothesis that the diagonalisation gives non-zero vectors is discharged by C92_nonzero_vectors."
  },
  {
   "property": "C75",
   "status": "partial",
   "theorems": [
    "TJ.C75_right_iff",
    "TJ.C75_highest_partial",
    "TJ.C75_ties_repeat"
   ],
   "note": "Exact condition: the positions are right if and only if the n largest weights are different (C75_right_iff); with different amplitudes the bars are the n largest weights, each determinant once (C75_highest_partial). Fails with ties: list.index finds the same determinant again (C75_ties_repeat)."
  },
  {
   "property": "C76",
   "status": "proved",
   "theorems": [
    "TJ.C76_reorganise",
    "TJ.C76_never_smoother"
   ],
   "note": ""
  },
  {
   "property": "C77",
   "status": "partial",
   "theorems": [
    "TJ.C77_shared_iff",
    "TJ.C77_sweep_files_partial",
    "TJ.C77_blocks_partial",
    "TJ.C77_neel_never_opened",
    "TJ.C77_switches_invisible"
   ],
   "note": "Holds for the sweep (C77_sweep_files_partial) and for embedding_blocks (C77_blocks_partial). Fails for embedding_neel, whose file is in another directory (C77_neel_never_opened), and different incomplete switch sets share a file of embedding_blocks (C77_switches_invisible). C77_shared_iff: the exact condition for a shared file."
  },
  {
   "property": "C78",
   "status": "partial",
   "theorems": [
    "TJ.C78_right_iff",
    "TJ.C78_cells_partial",
    "TJ.C78_single_cell"
   ],
   "note": "Holds for at least 4 subplots. For 1 to 3 subplots the axes array is not two-dimensional: TypeError (C78_single_cell); for 0 ValueError. Exact condition: C78_right_iff."
  },
  {
   "property": "C79",
   "status": "partial",
   "theorems": [
    "TJ.C79_blocks_partial",
    "TJ.C79_neel_isolated",
    "TJ.C79_neel_fails",
    "TJ.C79_neel_iff"
   ],
   "note": "Holds for embedding_blocks (C79_blocks_partial). embedding_neel stores the Hamiltonian of the isolated block with the eigenstates of the dressed one (C79_neel_isolated, C79_neel_fails). C79_neel_iff: a diagonalised state is an eigenvector of the stored matrix with its energy exactly if none of its determinants interacts with the border."
  },
  {
   "property": "C80",
   "status": "proved",
   "theorems": [
    "TJ.C80_no_failure_count",
    "TJ.C80_no_failure",
    "TJ.C80_residues",
    "TJ.C80_near_eigenvalue",
    "TJ.C80_spins"
   ],
   "note": "the whole of perform_initial_computations with exact arithmetic; near_eigenvalue needs two wanted states or two iterations, as C68 With the order of CPython the condition on sets is that of C81."
  },
  {
   "property": "C81",
   "status": "proved",
   "theorems": [
    "TJ.C81_tables",
    "TJ.C81_small_sets",
    "TJ.C81_sets",
    "TJ.C81_in_order_iff",
    "TJ.C81_in_order_small",
    "TJ.C81_total_spin",
    "TJ.C81_total_spin_iff",
    "TJ.C81_nine_sites"
   ],
   "note": "equivalences for all numbers of sites and holes; C81_nine_sites is the failing case of C39 and C40 on CPython"
  },
  {
   "property": "C82",
   "status": "partial",
   "theorems": [
    "TJ.C82_corrections",
    "TJ.C82_grows_partial",
    "TJ.C82_always_restarts",
    "TJ.C82_no_growth",
    "TJ.C82_growth_iff"
   ],
   "note": "Corrections and contents proved for all runs. Growth holds for dim_max >= dim + nb_val (C82_grows_partial); below that, and with the default value, the test on the number of rows restarts in every iteration (C82_always_restarts, C82_no_growth). Exact condition: C82_growth_iff."
  },
  {
   "property": "C83",
   "status": "proved",
   "theorems": [
    "TJ.C83_compression",
    "TJ.C83_spectrum",
    "TJ.C83_too_many"
   ],
   "note": "uses that the QR decomposition is triangular (NestedQr), satisfied by realLib"
  },
  {
   "property": "C84",
   "status": "proved",
   "theorems": [
    "TJ.C84_outer_display",
    "TJ.C84_text_determines_occupation"
   ],
   "note": ""
  },
  {
   "property": "C85",
   "status": "partial",
   "theorems": [
    "TJ.C85_always_fails",
    "TJ.C85_values_partial",
    "TJ.C85_names"
   ],
   "note": "False: with a Basis, as documented, every non-zero vector leads to AttributeError (C85_always_fails). With a Configuration the values are right (C85_values_partial) but the names belong to s(s+1) in place of s: right only for spin 0 and above 2 (C85_names)."
  },
  {
   "property": "C86",
   "status": "partial",
   "theorems": [
    "TJ.C86_all_zero",
    "TJ.C86_draws_zero",
    "TJ.C86_low_states_fail"
   ],
   "note": "False for all inputs: the arguments of modified_davidson_algorithm are shifted by one, so every value drawn is 0 (C86_all_zero, C86_draws_zero) or the function ends with TypeError (C86_low_states_fail). The couplings of the points are the subject of C108."
  },
  {
   "property": "C87",
   "status": "proved",
   "theorems": [
    "TJ.C87_mirror_spectrum"
   ],
   "note": "proved for every field"
  },
  {
   "property": "C88",
   "status": "proved",
   "theorems": [
    "TJ.C88_energies_occur",
    "TJ.C88_static_alone"
   ],
   "note": "the hypothesis bz = bij is needed: C88_static_alone gives two electrons on which the claim fails without it"
  },
  {
   "property": "C89",
   "status": "partial",
   "theorems": [
    "TJ.C89_saved_iff",
    "TJ.C89_peripheral_partial",
    "TJ.C89_blocks_partial",
    "TJ.C89_guess_empties_file"
   ],
   "note": "violated: with an initial guess json.dumps raises TypeError after the file was opened, both functions leave an empty file that load_data cannot read, whatever it contained before (C89_guess_empties_file). Exact condition: C89_saved_iff."
  },
  {
   "property": "C90",
   "status": "partial",
   "theorems": [
    "TJ.C90_found_iff",
    "TJ.C90_chain_partial",
    "TJ.C90_other_switches"
   ],
   "note": "violated for all other switches: the embeddings load an older file or raise FileNotFoundError (C90_other_switches). Exact condition: C90_found_iff."
  },
  {
   "property": "C91",
   "status": "proved",
   "theorems": [
    "TJ.C91_two_bodies",
    "TJ.C91_total",
    "TJ.C91_bad_site"
   ],
   "note": ""
  },
  {
   "property": "C92",
   "status": "proved",
   "theorems": [
    "TJ.C92_nonzero_vectors",
    "TJ.C92_always_solves",
    "TJ.C92_neel_returns"
   ],
   "note": ""
  },
  {
   "property": "C93",
   "status": "proved",
   "theorems": [
    "TJ.C93_blocks_return"
   ],
   "note": "the relabelling of is_bond_linear is assumed to find the geometry, as in C74 (C74_search_geometry) With dynamical effects: C107."
  },
  {
   "property": "C94",
   "status": "partial",
   "theorems": [
    "TJ.C94_right_iff",
    "TJ.C94_flipped",
    "TJ.C94_one_row_partial",
    "TJ.C94_upside_down",
    "TJ.C94_simple_partial"
   ],
   "note": "the claim is false for lattices of several rows: get_probability_spin_rectangular_lattice puts the top row first, interp2d draws the first row at the bottom; C94_simple_partial: non-degenerate states are drawn right, by the mirror symmetry (C98). Exact condition for normalised states: every site is at its place if and only if the probabilities are mirror symmetric (C94_right_iff)."
  },
  {
   "property": "C95",
   "status": "partial",
   "theorems": [
    "TJ.C95_never_saved",
    "TJ.C95_panels_partial"
   ],
   "note": "the claim is false: bool_interactions.bV_embedding does not exist"
  },
  {
   "property": "C96",
   "status": "partial",
   "theorems": [
    "TJ.C96_right_iff",
    "TJ.C96_third_panel",
    "TJ.C96_no_down_partial",
    "TJ.C96_not_the_charge",
    "TJ.C96_no_state"
   ],
   "note": "the claim is false for every sector with a down spin. Exact condition for normalised states: no down spin (C96_right_iff)."
  },
  {
   "property": "C97",
   "status": "partial",
   "theorems": [
    "TJ.C97_names_partial",
    "TJ.C97_names_iff",
    "TJ.C97_collision"
   ],
   "note": "false exactly for the numbers of electrons that violate DistinctNames, the first is 11; the name does not depend on the switches Exact condition: C97_names_iff."
  },
  {
   "property": "C98",
   "status": "proved",
   "theorems": [
    "TJ.C98_hamiltonian",
    "TJ.C98_moved_exists",
    "TJ.C98_density"
   ],
   "note": ""
  },
  {
   "property": "C99",
   "status": "proved",
   "theorems": [
    "TJ.C99_upper_bounds",
    "TJ.C99_sorted"
   ],
   "note": "Extends C51, which bounds all values by the ends of the spectrum. Same side condition as C51 (needed, C51_unnormalised_guess)."
  },
  {
   "property": "C100",
   "status": "proved",
   "theorems": [
    "TJ.C100_values_decrease"
   ],
   "note": "Extends C67 from the lowest value to all values."
  },
  {
   "property": "C101",
   "status": "proved",
   "theorems": [
    "TJ.C101_sweep",
    "TJ.C101_energies",
    "TJ.C101_ratios"
   ],
   "note": "the degeneracy counts only the returned states: a multiplet cut by nb_val looks less degenerate"
  },
  {
   "property": "C102",
   "status": "proved",
   "theorems": [
    "TJ.C102_rescaled"
   ],
   "note": ""
  },
  {
   "property": "C103",
   "status": "partial",
   "theorems": [
    "TJ.C103_saved_partial",
    "TJ.C103_not_saved",
    "TJ.C103_saved_iff",
    "TJ.C103_polarised"
   ],
   "note": "true when every curve starts as a doublet or quartet with degeneracy 1 or 2 and all requested states exist; otherwise nothing is saved (colour or style unbound, or empty curve): proved, and shown to happen in every polarised sector whose number of electrons is neither 1 nor 3 Exact condition: C103_saved_iff."
  },
  {
   "property": "C104",
   "status": "proved",
   "theorems": [
    "TJ.C104_sign_of_t",
    "TJ.C104_opposite_energies",
    "TJ.C104_symmetric"
   ],
   "note": ""
  },
  {
   "property": "C105",
   "status": "proved",
   "theorems": [
    "TJ.C105_same_lowest_energy"
   ],
   "note": ""
  },
  {
   "property": "C106",
   "status": "proved",
   "theorems": [
    "TJ.C106_dynamic_dressing",
    "TJ.C106_symmetric",
    "TJ.C106_sign_of_state",
    "TJ.C106_undoped"
   ],
   "note": "The second-order terms of a state with itself are not added, and the three kinds of exchange listed in the code are not treated alike: for spin exchanges and electrons that leave the block the lists of sites handed to the interactions never meet, so these perturbators couple to nothing."
  },
  {
   "property": "C107",
   "status": "proved",
   "theorems": [
    "TJ.C107_dressed_matrix",
    "TJ.C107_dynamic_returns"
   ],
   "note": "A reversed neighbour with different numbers of up and down spins is excluded: there the code raises (C62)."
  },
  {
   "property": "C108",
   "status": "partial",
   "theorems": [
    "TJ.C108_hamiltonian_partial",
    "TJ.C108_rows",
    "TJ.C108_columns",
    "TJ.C108_wrong_rows"
   ],
   "note": "False in general: the code multiplies J by the index of the point instead of its coordinate. C108_rows: the hopping is right only where iY (nbT + 4) = 5 (nbT - 1), C108_columns: the repulsion is right only in the first column or with sixteen columns, C108_wrong_rows: the rows are even drawn in the opposite order (t = 0 is drawn at -5)."
  },
  {
   "property": "C109",
   "status": "proved",
   "theorems": [
    "TJ.C109_signs",
    "TJ.C109_unique"
   ],
   "note": ""
  },
  {
   "property": "C110",
   "status": "proved",
   "theorems": [
    "TJ.C110_total_spin",
    "TJ.C110_spin_number",
    "TJ.C110_order"
   ],
   "note": ""
  },
  {
   "property": "C111",
   "status": "proved",
   "theorems": [
    "TJ.C111_signs",
    "TJ.C111_unique",
    "TJ.C111_total_spin",
    "TJ.C111_spin_number"
   ],
   "note": ""
  },
  {
   "property": "C112",
   "status": "proved",
   "theorems": [
    "TJ.C112_canonical",
    "TJ.C112_arrays",
    "TJ.C112_sorting",
    "TJ.C112_product",
    "TJ.C112_operator"
   ],
   "note": ""
  },
  {
   "property": "C113",
   "status": "partial",
   "theorems": [
    "TJ.C113_sectors_iff",
    "TJ.C113_sweep_partial",
    "TJ.C113_always_overwritten",
    "TJ.C113_overwritten",
    "TJ.C113_too_many"
   ],
   "note": "Missing: false in general, see C113_always_overwritten, C113_overwritten and C113_too_many. Exact condition: C113_sectors_iff."
  },
  {
   "property": "C114",
   "status": "partial",
   "theorems": [
    "TJ.C114_ends_iff",
    "TJ.C114_pictures_partial",
    "TJ.C114_stops_anyway",
    "TJ.C114_stops"
   ],
   "note": "Missing: false with the pictures of the holes (C114_stops) and for numbers of electrons that violate DistinctNames (C113_always_overwritten). The interpolation between the sites (scipy.interpolate.interp2d) and the drawing itself are not modelled. Exact condition for ending normally: C114_ends_iff."
  },
  {
   "property": "C115",
   "status": "proved",
   "theorems": [
    "TJ.C115_monotone",
    "TJ.C115_continuous",
    "TJ.C115_concave",
    "TJ.C115_flip_alone"
   ],
   "note": "Selections with bij but without bz are excluded: C115_flip_alone gives a counterexample"
  },
  {
   "property": "C116",
   "status": "proved",
   "theorems": [
    "TJ.C116_shift",
    "TJ.C116_no_holes",
    "TJ.C116_returned"
   ],
   "note": ""
  },
  {
   "property": "C117",
   "status": "partial",
   "theorems": [
    "TJ.C117_run_partial",
    "TJ.C117_isolated_fails",
    "TJ.C117_isolated_witness",
    "TJ.C117_file_name"
   ],
   "note": "partial: the energy of the isolated block is never printed by main.py (negation and witness proved); everything else is proved"
  },
  {
   "property": "C118",
   "status": "proved",
   "theorems": [
    "TJ.C118_guess",
    "TJ.C118_orthonormal",
    "TJ.C118_main"
   ],
   "note": "main.py never hands these guesses to Diagonalization, so the property is about the matrices only"
  },
  {
   "property": "C119",
   "status": "proved",
   "theorems": [
    "TJ.C119_projection",
    "TJ.C119_first_and_last",
    "TJ.C119_ends"
   ],
   "note": "these functions are called by nothing else in the code"
  },
  {
   "property": "C120",
   "status": "proved",
   "theorems": [
    "TJ.C120_simple",
    "TJ.C120_geometry",
    "TJ.C120_degenerate",
    "TJ.C120_exact"
   ],
   "note": "discharges the hypothesis on the geometry of C74, C93, C106 and C107 for these sizes"
  },
  {
   "property": "C121",
   "status": "proved",
   "theorems": [
    "TJ.C121_matrix",
    "TJ.C121_spectrum",
    "TJ.C121_lowest",
    "TJ.C121_all_sectors",
    "TJ.C121_run"
   ],
   "note": "exact solution of the model by an independent formula"
  },
  {
   "property": "C122",
   "status": "proved",
   "theorems": [
    "TJ.C122_mean",
    "TJ.C122_lowest",
    "TJ.C122_squares",
    "TJ.C122_hopping",
    "TJ.C122_bounded"
   ],
   "note": "sum rules; independent of any diagonalisation"
  },
  {
   "property": "C123",
   "status": "proved",
   "theorems": [
    "TJ.C123_window",
    "TJ.C123_all_energies",
    "TJ.C123_lowest"
   ],
   "note": "All energies over the reals; the spin flip needs the static spin term switched on too."
  },
  {
   "property": "C124",
   "status": "proved",
   "theorems": [
    "TJ.C124_connected",
    "TJ.C124_signs",
    "TJ.C124_unique",
    "TJ.C124_total_spin",
    "TJ.C124_spin_number",
    "TJ.C124_row",
    "TJ.C124_row_lowest"
   ],
   "note": "C124_row and C124_row_lowest show that the condition of two rows and two columns cannot be dropped."
  },
  {
   "property": "C125",
   "status": "proved",
   "theorems": [
    "TJ.C125_spectrum",
    "TJ.C125_energies",
    "TJ.C125_lowest"
   ],
   "note": "The repulsion and the couplings have to be off, as has the hopping to second neighbours."
  },
  {
   "property": "C126",
   "status": "partial",
   "theorems": [
    "TJ.C126_agree",
    "TJ.C126_agree_opt",
    "TJ.C126_agree_single",
    "TJ.C126_below_partial",
    "TJ.C126_no_second_iteration",
    "TJ.C126_vectors_fail",
    "TJ.C126_determinants_fail",
    "TJ.C126_main_guesses_fail"
   ],
   "note": "partial because the code divides by zero for guesses made of determinants; missing: starts above a diagonal element"
  },
  {
   "property": "C127",
   "status": "partial",
   "theorems": [
    "TJ.C127_anticommute",
    "TJ.C127_one_hole_partial",
    "TJ.C127_one_hole_same_sign_partial",
    "TJ.C127_row_partial",
    "TJ.C127_fails",
    "TJ.C127_energies_differ",
    "TJ.C127_energy_too_low"
   ],
   "note": "Holds with at most one hole and on rows (partial theorems); fails on rectangles with two holes and two like spins (C127_fails, C127_energies_differ, C127_energy_too_low)."
  },
  {
   "property": "C128",
   "status": "partial",
   "theorems": [
    "TJ.C128_layout",
    "TJ.C128_pictures_partial",
    "TJ.C128_ends_iff",
    "TJ.C128_data_changed",
    "TJ.C128_stale"
   ],
   "note": "Partial because the code violates the claim: it raises for nb_v different from nb_t, for the two lowest states and for a missing directory (C128_ends_iff), and it changes its argument (C128_data_changed, C128_stale)."
  },
  {
   "property": "C129",
   "status": "partial",
   "theorems": [
    "TJ.C129_saved_partial",
    "TJ.C129_order_lost",
    "TJ.C129_overwritten",
    "TJ.C129_all_sectors",
    "TJ.C129_compares_iff"
   ],
   "note": "Partial because the code violates the claim: the bars are sorted apart from each other (C129_order_lost), all kinds of embedding have the same file name (C129_overwritten), and generate_plots needs an embedding of every sector (C129_all_sectors). C129_compares_iff: with at most 30 determinants the bars at each place belong to one determinant exactly if no determinant with the smaller isolated modulus has the larger embedded modulus."
  },
  {
   "property": "C130",
   "status": "partial",
   "theorems": [
    "TJ.C130_blocks_partial",
    "TJ.C130_isolated_start_partial",
    "TJ.C130_neel_start_partial",
    "TJ.C130_no_file",
    "TJ.C130_other_switches",
    "TJ.C130_guess_fails",
    "TJ.C130_chain_partial"
   ],
   "note": "Partial because the code violates the full claim: with an initial guess in the Data object the run raises TypeError and leaves an unreadable file (C130_guess_fails), with other switches the saved results are not found (C130_other_switches, C130_no_file), and dynamical effects next to reversed blocks with unequal numbers of up and down spins and at least one hole always raise an exception (C139_files)."
  },
  {
   "property": "C131",
   "status": "proved",
   "theorems": [
    "TJ.C131_field",
    "TJ.C131_step",
    "TJ.C131_saved"
   ],
   "note": ""
  },
  {
   "property": "C132",
   "status": "partial",
   "theorems": [
    "TJ.C132_works_iff",
    "TJ.C132_new",
    "TJ.C132_stale_index_error",
    "TJ.C132_after_sweep_partial"
   ],
   "note": "The full claim is false: save_phase_space changes nalpha and nbeta but not nb_conf, so compute_S2 raises IndexError for every vector unless all spins were parallel at the start (C132_after_sweep_partial gives both cases, C132_stale_index_error the reason). C132_new ties the operators on objects to those of the model. C132_works_iff: the exact condition."
  },
  {
   "property": "C133",
   "status": "proved",
   "theorems": [
    "TJ.C133_own_eigenvalues",
    "TJ.C133_degeneracy",
    "TJ.C133_any_library",
    "TJ.C133_initial"
   ],
   "note": "C133_own_eigenvalues, C133_degeneracy and C133_initial need an orthonormal start (at least two values, an orthonormal guess or two steps), as C51 does. C133_any_library assumes nothing of QR, eigh and the random vectors; products A*u and differences are exact."
  },
  {
   "property": "C134",
   "status": "proved",
   "theorems": [
    "TJ.C134_pattern",
    "TJ.C134_couplings",
    "TJ.C134_count"
   ],
   "note": "For singlet displacement without the hopping by two bonds only the pattern is proved, not the closed number."
  },
  {
   "property": "C135",
   "status": "proved",
   "theorems": [
    "TJ.C135_side_by_side",
    "TJ.C135_stacked",
    "TJ.C135_copies",
    "TJ.C135_condition"
   ],
   "note": ""
  },
  {
   "property": "C136",
   "status": "proved",
   "theorems": [
    "TJ.C136_reversed",
    "TJ.C136_pairs",
    "TJ.C136_never_right",
    "TJ.C136_highest_pairs",
    "TJ.C136_antiferromagnet"
   ],
   "note": "Exact arithmetic: rounding in the numerical eigenvectors may separate the two moduli."
  },
  {
   "property": "C137",
   "status": "proved",
   "theorems": [
    "TJ.C137_densities",
    "TJ.C137_field",
    "TJ.C137_chain",
    "TJ.C137_saved"
   ],
   "note": "C137_chain and C137_saved assume that the saved state of the isolated block has the lowest energy (exists_saved: there is such a file)."
  },
  {
   "property": "C138",
   "status": "proved",
   "theorems": [
    "TJ.C138_index",
    "TJ.C138_no_dressing",
    "TJ.C138_never_returns",
    "TJ.C138_static_iff",
    "TJ.C138_files"
   ],
   "note": "The permutation of `beyond_turn` is the quarter turn of the rectangle; the code multiplies by the number of columns instead of the number of rows (or shifts by the difference), so sites go outside."
  },
  {
   "property": "C139",
   "status": "proved",
   "theorems": [
    "TJ.C139_no_dressing",
    "TJ.C139_never_returns",
    "TJ.C139_no_holes",
    "TJ.C139_returns_iff",
    "TJ.C139_files"
   ],
   "note": "With holes and no down spin in the block, the perturbed configuration has -1 down spins and overlapping slices; the model raises there and Python at the latest at the missing key, so only the kind of the exception is not modelled in that case."
  },
  {
   "property": "C140",
   "status": "partial",
   "theorems": [
    "TJ.C140_lowest_iff",
    "TJ.C140_contains_partial",
    "TJ.C140_gap",
    "TJ.C140_first_value",
    "TJ.C140_fixed",
    "TJ.C140_misses",
    "TJ.C140_static"
   ],
   "note": "Partial because the code violates the full claim: C140_fixed (any orthonormal eigenvectors as start), C140_misses (every matrix with enough eigenvectors above the lowest one), C140_static (determinants of a static Hamiltonian). Proved: C140_contains_partial, C140_gap, C140_first_value. Exact condition: C140_lowest_iff (the last search space contains orthonormal eigenvectors of the lowest eigenvalues; the returned states are then eigenvectors)."
  },
  {
   "property": "C141",
   "status": "partial",
   "theorems": [
    "TJ.C141_kept_partial",
    "TJ.C141_energies",
    "TJ.C141_leaves",
    "TJ.C141_one_state",
    "TJ.C141_lattice",
    "TJ.C141_reversal"
   ],
   "note": "Partial because the code violates the full claim: in a subspace of fewer than 2 nb_val dimensions the second search space leaves it (C141_leaves). Proved: kept as long as no dependent columns are orthonormalised (C141_kept_partial); always for one state and a constant diagonal, in particular on rectangles without static terms (C141_one_state, C141_lattice, C141_reversal); energies of other parity are missed (C141_energies)."
  },
  {
   "property": "C142",
   "status": "partial",
   "theorems": [
    "TJ.C142_kept_partial",
    "TJ.C142_kept_iff",
    "TJ.C142_lost",
    "TJ.C142_repeats",
    "TJ.C142_returns"
   ],
   "note": "Proved: kept if the lowest states converge first, and the exact condition when at most one converged vector stands behind the first nc positions. The claim is false otherwise (C142_lost) and for nb_val above the dimension (C142_repeats)."
  },
  {
   "property": "C143",
   "status": "partial",
   "theorems": [
    "TJ.C143_saved_partial",
    "TJ.C143_outcome",
    "TJ.C143_no_directory",
    "TJ.C143_iff",
    "TJ.C143_collision",
    "TJ.C143_names_iff"
   ],
   "note": "false without the directory of the lattice, for states at the first ratio other than doublets and quartets with degeneracy 1 or 2, and for numbers of electrons that violate DistinctNames (first 11). Exact conditions: C143_iff, C143_names_iff."
  },
  {
   "property": "C144",
   "status": "partial",
   "theorems": [
    "TJ.C144_level_partial",
    "TJ.C144_symmetric",
    "TJ.C144_reversed",
    "TJ.C144_determined_iff",
    "TJ.C144_not_determined"
   ],
   "note": "false for the single states of a degenerate level (C144_not_determined); proved for the sums over the level. Exact condition for single states: C144_determined_iff."
  },
  {
   "property": "C145",
   "status": "proved",
   "theorems": [
    "TJ.C145_multiplet",
    "TJ.C145_pictures",
    "TJ.C145_ferro"
   ],
   "note": "Over the reals. The norm of the lowered state and of its part with a hole on a site grow by the same factor, which depends on the total spin only."
  },
  {
   "property": "C146",
   "status": "proved",
   "theorems": [
    "TJ.C146_least",
    "TJ.C146_others",
    "TJ.C146_all_spins",
    "TJ.C146_reported"
   ],
   "note": "Over the reals."
  },
  {
   "property": "C147",
   "status": "proved",
   "theorems": [
    "TJ.C147_rise",
    "TJ.C147_concave",
    "TJ.C147_sum",
    "TJ.C147_strict",
    "TJ.C147_points"
   ],
   "note": "The sign condition concerns the ratios of the three exchange couplings only; hopping, repulsion and further hoppings are arbitrary."
  },
  {
   "property": "C148",
   "status": "proved",
   "theorems": [
    "TJ.C148_corners",
    "TJ.C148_first",
    "TJ.C148_next",
    "TJ.C148_window"
   ],
   "note": ""
  },
  {
   "property": "C149",
   "status": "proved",
   "theorems": [
    "TJ.C149_identity",
    "TJ.C149_descent",
    "TJ.C149_total",
    "TJ.C149_bounded",
    "TJ.C149_energies",
    "TJ.C149_cycle"
   ],
   "note": "For VNN > 0 with holes only the identity holds; C149_cycle is a run that never settles."
  },
  {
   "property": "C150",
   "status": "proved",
   "theorems": [
    "TJ.C150_field",
    "TJ.C150_mean",
    "TJ.C150_first_column"
   ],
   "note": "The state before is normalised, as the diagonalisation returns it."
  },
  {
   "property": "C151",
   "status": "proved",
   "theorems": [
    "TJ.C151_identity",
    "TJ.C151_descent",
    "TJ.C151_unreversed",
    "TJ.C151_repeats",
    "TJ.C151_total",
    "TJ.C151_square"
   ],
   "note": "The states are assumed to have even sides; C152 shows when the iterations keep them."
  },
  {
   "property": "C152",
   "status": "proved",
   "theorems": [
    "TJ.C152_matrix",
    "TJ.C152_state",
    "TJ.C152_run",
    "TJ.C152_descends"
   ],
   "note": "For a degenerate ground state nothing is claimed; the quarter turns are products of the two mirror images."
  }
 ]
}