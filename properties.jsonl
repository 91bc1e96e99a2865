{"id": "C01", "title": "Basis enumerates every occupation exactly once", "statement": "construct_basis returns a list of determinants without repetition in which every way of putting nholes holes, nbeta down spins and the remaining up spins on the nsites sites appears exactly once; it raises ValueError exactly when nholes is negative, or nbeta is negative and there are enough sites for the holes.", "quantifier": "all numbers of sites, holes and down spins, and all site occupations with those counts", "why_tests_cant": "The basis has binomially many elements; a test can list it only for a few tiny lattices.", "anchors": [{"file": "baseConstruction.py", "symbols": ["construct_basis", "Configuration"]}]}
{"id": "C02", "title": "The announced dimension is the length of the basis", "statement": "configuration.nb_conf (and compute_dimension for the same counts) equals the number of determinants returned by construct_basis, also when more holes or electrons than sites are requested (both are then zero).", "quantifier": "all nsites, nholes, nbeta", "why_tests_cant": "Equality of a closed formula with the length of an enumeration for all parameters is a theorem of combinatorics, not a finite check.", "anchors": [{"file": "latticeFunctions.py", "symbols": ["compute_dimension"]}, {"file": "baseConstruction.py", "symbols": ["Configuration", "construct_basis"]}]}
{"id": "C03", "title": "Basis order is lexicographic and every determinant is canonical", "statement": "In the list returned by construct_basis each determinant is a permutation of the sites whose hole, down and up parts are increasing, and the list is strictly increasing in lexicographic order of (hole sites, down sites).", "quantifier": "all configurations and all pairs of positions in the basis", "why_tests_cant": "All the index arithmetic depends on this order for every pair of entries of every basis.", "anchors": [{"file": "baseConstruction.py", "symbols": ["construct_basis"]}]}
{"id": "C04", "title": "Index of a basis element is its position", "statement": "get_index_in_basis(configuration, basis.determinants[i]) == i for every position i of the basis.", "quantifier": "all configurations, all positions i", "why_tests_cant": "The rank is computed by sums of binomials; agreement with the position must hold for exponentially many determinants.", "anchors": [{"file": "baseConstruction.py", "symbols": ["get_index_in_basis", "compute_hash_table", "get_distance_hash", "project_hash"]}]}
{"id": "C05", "title": "Un-ranking returns the basis element at the given position", "statement": "get_hash_basis(nholes, nalpha, nbeta, i) terminates without exception and equals basis.determinants[i] for every 0 <= i < nb_conf; ranking and un-ranking are mutually inverse.", "quantifier": "all counts and all indices below the dimension", "why_tests_cant": "The un-ranking walks with jumps and carries; only a proof covers every carry pattern.", "anchors": [{"file": "baseConstruction.py", "symbols": ["get_hash_basis", "get_target_hash", "fusion_hash"]}]}
{"id": "C06", "title": "Index is defined for every valid determinant and ignores the order inside a species", "statement": "For any list that is a permutation of all sites, get_index_in_basis returns a number below nb_conf, two such lists get the same index exactly when they have the same occupation of every site, and reordering sites inside the hole, down or up part never changes the index.", "quantifier": "all configurations, all permutations of the sites", "why_tests_cant": "There are factorially many inputs for each basis element.", "anchors": [{"file": "baseConstruction.py", "symbols": ["get_index_in_basis", "reorder_basis_element", "compute_hash_table"]}]}
{"id": "C07", "title": "get_target_hash returns the ind-th subset or raises IndexError", "statement": "For size <= nsites, get_target_hash(nsites, size, ind) always terminates; it returns the ind-th increasing size-subset of range(nsites) in lexicographic order when ind < C(nsites, size), and raises IndexError when size > 0 and ind >= C(nsites, size).", "quantifier": "all nsites, size <= nsites, ind >= 0", "why_tests_cant": "Termination of the nested while loops and the behaviour at the end of the range concern unboundedly many indices.", "anchors": [{"file": "baseConstruction.py", "symbols": ["get_target_hash"]}]}
{"id": "C08", "title": "Reordering yields the canonical representative", "statement": "reorder_basis_element sorts each species, keeps the occupation of every site, is idempotent, leaves every basis element unchanged, and always lands in the basis when its input is a permutation of the sites.", "quantifier": "all configurations and all permutations of the sites", "why_tests_cant": "Quantifies over all permutations of all lattices.", "anchors": [{"file": "baseConstruction.py", "symbols": ["reorder_basis_element"]}]}
{"id": "C09", "title": "Site queries agree with each other for every set iteration order", "statement": "For every permutation of the sites, a site is listed by get_indexes_of(conf, det, s) exactly when get_spin_site reports s/2 on it (and, with a site restriction, it belongs to the chosen component of the restriction); without restriction each site is listed for exactly one species and once, whatever order Python iterates over sets; get_spin_site raises ValueError exactly for sites that are not in the determinant and get_indexes_of raises ValueError for a species other than 0, 1, -1.", "quantifier": "all determinants, all sites, all iteration orders of sets", "why_tests_cant": "A test run sees only the iteration order of one interpreter.", "anchors": [{"file": "baseConstruction.py", "symbols": ["get_indexes_of", "get_spin_site"]}]}
{"id": "C10", "title": "Spin reversal is an involution that exchanges up and down on every site", "statement": "On an unrestricted configuration reverse_spins keeps holes, exchanges up and down on every site, exchanges nalpha and nbeta, gives a canonical determinant of the reversed configuration, applying it twice gives back the configuration and the canonical determinant, and reverse_spins_basis is a reordering without repetition of the basis of the reversed configuration.", "quantifier": "all configurations without site restriction, all determinants, all set iteration orders", "why_tests_cant": "Involution and bijectivity are statements about all determinants of all bases.", "anchors": [{"file": "baseConstruction.py", "symbols": ["reverse_spins", "reverse_spins_basis"]}]}
{"id": "C11", "title": "Spin reversal of states is an involution that preserves scalar products", "statement": "On an unrestricted configuration reverse_spins_vect moves the coefficient of each determinant to the position of the reversed determinant, preserves scalar products (hence norms), and applying it in the reversed configuration gives the original vector back.", "quantifier": "all configurations without site restriction, all vectors", "why_tests_cant": "Quantifies over all vectors of all dimensions.", "anchors": [{"file": "baseConstruction.py", "symbols": ["reverse_spins_vect"]}]}
{"id": "C12", "title": "Joining two lattices keeps the occupation of both", "statement": "For unrestricted configurations, extend_determinant returns a permutation of the nsites_1 + nsites_2 sites, with nholes_1 + nholes_2 holes and nbeta_1 + nbeta_2 down spins, whose occupation is that of det_1 on the sites below nsites_1 and that of det_2 shifted by nsites_1 elsewhere, whatever the set iteration order.", "quantifier": "all pairs of configurations and determinants, all set iteration orders", "why_tests_cant": "Pairs of determinants and set orders cannot be enumerated.", "anchors": [{"file": "baseConstruction.py", "symbols": ["extend_determinant"]}]}
{"id": "C13", "title": "Rotation of a square lattice is a symmetry of order four", "statement": "On a square lattice rotate_determinant(k, ...) moves the content of site (x, y) to (y, L-1-x) per clockwise quarter turn, maps basis elements to basis elements, composes additively in k modulo 4 (so four quarter turns are the identity and k and 4-k are inverse) and maps neighbouring sites to neighbouring sites. On non-square rectangles the quarter turn does not return a determinant.", "quantifier": "all square sizes, all determinants, all integers k", "why_tests_cant": "Tests rotate a few determinants on a few sizes.", "anchors": [{"file": "baseConstruction.py", "symbols": ["rotate_determinant"]}]}
{"id": "C14", "title": "Rectangular bond matrix is the nearest-neighbour matrix of the grid", "statement": "build_rectangular_bond_matrix(nbh, nbv, nblocs_side) is a symmetric 0/1 matrix with zero diagonal, of dimension nbh*nbv*nblocs_side^2, whose entry (i, j) is 1 exactly when sites i and j, indexed row by row with nbh*nblocs_side sites per row, are at distance one on the square grid (rows do not wrap around).", "quantifier": "all nbh, nbv, nblocs_side >= 1 and all pairs of sites", "why_tests_cant": "Sizes are unbounded; tests compare a few literal matrices.", "anchors": [{"file": "latticeFunctions.py", "symbols": ["build_rectangular_bond_matrix", "build_J_matrix"]}]}
{"id": "C15", "title": "Peripheral bond matrix is the planar neighbour matrix of the bordered block", "statement": "build_bond_matrix_neel_embedding returns without exception a symmetric 0/1 matrix in which two sites are bonded exactly when they are at distance one in the plane, the block occupying [0,W)x[0,H) and the peripheral sites the four borders counter-clockwise from the bottom-left; every peripheral site is bonded to exactly one block site, so the matrix has no bond between different sides.", "quantifier": "all nbh, nbv, nblocs_side >= 1, all pairs of sites", "why_tests_cant": "The matrix is assembled from ten blocks whose dimensions must agree for every size.", "anchors": [{"file": "latticeFunctions.py", "symbols": ["build_bond_matrix_neel_embedding", "build_bond_matrix_neel_outer_lattice", "build_T_matrix"]}]}
{"id": "C16", "title": "Two-block bond matrix is the neighbour matrix of two blocks side by side", "statement": "build_bond_matrix_block_embedding returns without exception the symmetric 0/1 neighbour matrix of a 2W x H grid in which sites of the left block come first and sites of the right block next; relabelling sites row by row turns it into build_rectangular_bond_matrix(2*nbh, nbv, nblocs_side).", "quantifier": "all nbh, nbv, nblocs_side >= 1, all pairs of sites", "why_tests_cant": "Sizes are unbounded.", "anchors": [{"file": "latticeFunctions.py", "symbols": ["build_bond_matrix_block_embedding", "build_U_matrix"]}]}
{"id": "C17", "title": "The bond list contains each bond exactly once", "statement": "For a symmetric bond matrix without loops and no site restriction, build_bond_list returns each pair of bonded sites exactly once, smaller site first, and nothing else; with a pair of restrictions (A, B) it returns exactly the bonds i <= j with i in A and j in B, each once. Its content does not depend on set iteration order.", "quantifier": "all bond matrices, all restrictions, all set iteration orders", "why_tests_cant": "Quantifies over all graphs and all iteration orders.", "anchors": [{"file": "latticeFunctions.py", "symbols": ["build_bond_list"]}]}
{"id": "C18", "title": "Neighbour queries return exactly the sites at graph distance one and two", "statement": "get_neighbors returns, without repetition, exactly the sites allowed by the restriction whose bond with the given site is 1; get_second_neighbors returns, without repetition, exactly the allowed sites different from and not bonded to the given site that share a neighbour with it; neither depends (as a set) on set iteration order.", "quantifier": "all bond matrices, sites, restrictions, set iteration orders", "why_tests_cant": "Quantifies over all graphs and all iteration orders.", "anchors": [{"file": "latticeFunctions.py", "symbols": ["get_neighbors", "get_second_neighbors"]}]}
{"id": "C19", "title": "Collinearity test is geometric on row-by-row lattices", "statement": "On a rectangular lattice of type 'periodic', for any three distinct sites of which one is bonded to the other two, is_bond_linear returns True exactly when the three sites lie on one line of the grid, in whatever order the sites are given.", "quantifier": "all rectangle sizes, all triples of sites and argument orders", "why_tests_cant": "Triples of sites of unbounded lattices; thin lattices (one or two columns) are easy to forget.", "anchors": [{"file": "baseConstruction.py", "symbols": ["is_bond_linear"]}]}
{"id": "C20", "title": "Collinearity test is geometric on peripheral lattices", "statement": "On a peripheral lattice (block surrounded by border sites), for any three distinct sites of which one is bonded to the other two, is_bond_linear returns True exactly when the three sites lie on one line of the plane.", "quantifier": "all block sizes, all triples of sites", "why_tests_cant": "The decision is a nest of index comparisons; only some branches occur on the 3x3 block used in tests.", "anchors": [{"file": "baseConstruction.py", "symbols": ["is_bond_linear"]}, {"file": "latticeFunctions.py", "symbols": ["build_bond_matrix_neel_embedding"]}]}
{"id": "C21", "title": "Collinearity test on relabelled lattices is independent of the relabelling found", "statement": "On a lattice of type 'clusters' whose bond matrix is a relabelled rectangular grid, in exact arithmetic every sign choice accepted by the search of is_bond_linear yields a relabelling that maps the bond matrix to the row-by-row one, and the answer of is_bond_linear is the geometric collinearity of the three sites, whichever relabelling was accepted.", "quantifier": "all relabelled rectangular lattices, all orthonormal eigenvector choices with common spectrum, all accepted sign vectors, all triples", "why_tests_cant": "Eigenvectors returned by LAPACK are one choice out of infinitely many.", "anchors": [{"file": "baseConstruction.py", "symbols": ["is_bond_linear"]}]}
{"id": "C22", "title": "Diagonal second neighbours are the opposite corners of the tiles", "statement": "On a rectangular lattice without restriction get_diagonal_second_neighbors returns, without repetition and without exception, exactly the sites whose row and column both differ by one.", "quantifier": "all rectangle sizes, all sites, all set iteration orders", "why_tests_cant": "Sizes and set orders are unbounded.", "anchors": [{"file": "latticeFunctions.py", "symbols": ["get_diagonal_second_neighbors"]}, {"file": "baseConstruction.py", "symbols": ["is_bond_linear"]}]}
{"id": "C23", "title": "Collinearity test rejects triples that are not a path", "statement": "is_bond_linear raises ValueError exactly when two of the three sites are equal or one of them is bonded to neither of the others; on every other triple of a symmetric 0/1 loop-free lattice of type 'periodic' it returns a boolean.", "quantifier": "all symmetric 0/1 bond matrices, all triples of sites", "why_tests_cant": "Quantifies over all graphs.", "anchors": [{"file": "baseConstruction.py", "symbols": ["is_bond_linear"]}]}
{"id": "C24", "title": "Hopping moves a hole to a neighbouring electron site and nothing else", "statement": "On an unrestricted configuration compute_hopping_integral returns, exactly once for each pair (hole, neighbouring electron), the basis element obtained by exchanging the two sites; every image has the same numbers of holes, up and down spins; images are pairwise different and different from the input.", "quantifier": "all symmetric bond matrices, all determinants, all set iteration orders", "why_tests_cant": "Quantifies over all lattices and determinants.", "anchors": [{"file": "interactions.py", "symbols": ["compute_hopping_integral"]}]}
{"id": "C25", "title": "Next-neighbour hopping exchanges a hole with an electron two bonds away, once per pair", "statement": "On an unrestricted configuration compute_next_hopping_integral returns, exactly once for each pair (hole, electron with a common neighbour), the basis element with the two sites exchanged; on rectangular lattices it is in the collinear list exactly when the two sites are aligned and in the orthogonal list otherwise, independently of which common neighbour was visited first.", "quantifier": "all lattices, all determinants, all set iteration orders", "why_tests_cant": "The classification is decided by the first path met, which depends on set iteration order.", "anchors": [{"file": "interactions.py", "symbols": ["compute_next_hopping_integral"]}]}
{"id": "C26", "title": "Static spin energy is the sum over bonds of J (Sz Sz - 1/4)", "statement": "On an unrestricted rectangular lattice compute_static_spin_interaction equals the sum over bonds with two electrons of Jeff*(s_i s_j - 1/4), Jeff being Jhpar if a hole next to the bond is aligned with it, else Jhper if some hole is next to the bond, else J; equivalently minus half the sum of Jeff over bonds with opposite spins.", "quantifier": "all rectangle sizes, determinants, couplings, set iteration orders", "why_tests_cant": "Quantifies over all hole patterns around all bonds.", "anchors": [{"file": "interactions.py", "symbols": ["compute_static_spin_interaction"]}]}
{"id": "C27", "title": "Spin flips use the same coupling as the static term", "statement": "On an unrestricted rectangular lattice compute_spin_flip returns, exactly once per bond with opposite spins, the basis element with the two spins exchanged, in the list (collinear hole, orthogonal hole, undoped) that corresponds to the coupling used for that bond by the static term. On peripheral lattices the two classifications disagree for some bonds.", "quantifier": "all rectangle sizes, determinants, set iteration orders", "why_tests_cant": "The two classifications are computed by different code (index differences versus is_bond_linear) and must agree on all hole patterns.", "anchors": [{"file": "interactions.py", "symbols": ["compute_spin_flip", "compute_static_spin_interaction"]}]}
{"id": "C28", "title": "Singlet displacement moves the hole across a pair of opposite spins", "statement": "On an unrestricted configuration compute_singlet_displacement returns, once per path hole - electron - electron of opposite spin, the pair (both spins shifted one site towards the hole, outer spin moved to the hole site and inner spin kept), in the collinear list exactly when the path is straight; both members are basis elements with unchanged counts.", "quantifier": "all lattices, determinants, set iteration orders", "why_tests_cant": "Quantifies over all lattices and determinants.", "anchors": [{"file": "interactions.py", "symbols": ["compute_singlet_displacement"]}]}
{"id": "C29", "title": "Hole repulsion counts each pair of holes once", "statement": "On an unrestricted configuration compute_hole_repulsion equals VNN times the number of unordered pairs of neighbouring holes plus VNNNper times the number of unordered pairs of diagonal holes, whatever the order in which Python iterates over the holes.", "quantifier": "all rectangle sizes, all hole patterns, couplings, set iteration orders", "why_tests_cant": "The code slices a list built from a set; a test sees one order only.", "anchors": [{"file": "interactions.py", "symbols": ["compute_hole_repulsion"]}]}
{"id": "C30", "title": "Building the Hamiltonian never fails and stays inside the matrix", "statement": "For the basis built by construct_basis on an unrestricted rectangular lattice, build_hamiltonian raises no exception and every row and column index it produces is below the dimension, for every choice of interaction switches.", "quantifier": "all rectangle sizes, particle numbers, couplings, switches, set iteration orders", "why_tests_cant": "Each call chain contains list.index, remove, and index arithmetic that could raise for some input.", "anchors": [{"file": "hamiltonianConstruction.py", "symbols": ["build_hamiltonian", "add_ham_coo"]}, {"file": "interactions.py", "symbols": ["add_hopping_integral", "add_next_hopping_integral", "add_static_spin_interaction", "add_spin_flip", "add_singlet_displacement", "add_hole_repulsion"]}]}
{"id": "C31", "title": "The Hamiltonian matrix is the extended t-J Hamiltonian", "statement": "On an unrestricted rectangular lattice the entry of build_hamiltonian between determinants i and j is the sum over the selected terms of the textbook matrix elements between the two occupations (hopping t, collinear/orthogonal next-neighbour hopping, J(SzSz-1/4), J/2 spin flip with hole-dependent J, singlet displacement, hole repulsion).", "quantifier": "all rectangle sizes, particle numbers, couplings, switches, pairs (i, j), set iteration orders", "why_tests_cant": "Entry-wise equality of a matrix of unbounded dimension with a formula.", "anchors": [{"file": "hamiltonianConstruction.py", "symbols": ["build_hamiltonian"]}, {"file": "interactions.py", "symbols": ["add_hopping_integral", "add_next_hopping_integral", "add_static_spin_interaction", "add_spin_flip", "add_singlet_displacement", "add_hole_repulsion"]}]}
{"id": "C32", "title": "The Hamiltonian is symmetric", "statement": "On an unrestricted rectangular lattice build_hamiltonian returns a symmetric matrix for every choice of couplings and switches.", "quantifier": "all rectangle sizes, particle numbers, couplings, switches, set iteration orders", "why_tests_cant": "Symmetry of matrices of unbounded dimension for all couplings.", "anchors": [{"file": "hamiltonianConstruction.py", "symbols": ["build_hamiltonian"]}]}
{"id": "C33", "title": "The Hamiltonian is invariant under spin reversal", "statement": "The Hamiltonian of the configuration with nalpha and nbeta exchanged has, between reversed determinants, the same entries as the original one (so both sectors have the same spectrum).", "quantifier": "all rectangle sizes, particle numbers, couplings, switches, pairs of determinants", "why_tests_cant": "Relates two matrices of unbounded dimension entry by entry.", "anchors": [{"file": "hamiltonianConstruction.py", "symbols": ["build_hamiltonian"]}, {"file": "baseConstruction.py", "symbols": ["reverse_spins"]}]}
{"id": "C34", "title": "The Hamiltonian of a square lattice is invariant under quarter turns", "statement": "On a square lattice the entry of build_hamiltonian between rotated determinants equals the entry between the original ones, for every number of quarter turns.", "quantifier": "all square sizes, particle numbers, couplings, switches, pairs of determinants", "why_tests_cant": "The tests compare a few diagonal energies only.", "anchors": [{"file": "hamiltonianConstruction.py", "symbols": ["build_hamiltonian"]}, {"file": "baseConstruction.py", "symbols": ["rotate_determinant"]}]}
{"id": "C35", "title": "The Hamiltonian is additive in the switches and linear in the couplings", "statement": "build_hamiltonian with several switches is the sum of the matrices built with each switch alone, it is linear in the couplings, all switches off gives zero, and the sites_restriction argument has no influence on the result.", "quantifier": "all configurations, couplings, switches, arguments", "why_tests_cant": "Quantifies over all couplings.", "anchors": [{"file": "hamiltonianConstruction.py", "symbols": ["build_hamiltonian"]}]}
{"id": "C36", "title": "compute_energy is the diagonal of the static Hamiltonian", "statement": "compute_energy(configuration, interactions, basis.determinants[i]) equals entry (i, i) of the Hamiltonian built with only the static spin and hole repulsion switches, whose off-diagonal entries are zero; on an unrestricted rectangular lattice the other terms have zero diagonal.", "quantifier": "all configurations, couplings, determinants", "why_tests_cant": "Relates two code paths on every determinant.", "anchors": [{"file": "interactions.py", "symbols": ["compute_energy"]}, {"file": "hamiltonianConstruction.py", "symbols": ["build_hamiltonian"]}]}
{"id": "C37", "title": "compute_dynamic_interactions is the off-diagonal row of the Hamiltonian", "statement": "For each determinant, compute_dynamic_interactions maps each coupled determinant to its Hamiltonian matrix element for the same switches, and determinants it does not list have matrix element zero.", "quantifier": "all configurations, couplings, switches, determinants", "why_tests_cant": "Two independent code paths must agree on every row of every Hamiltonian.", "anchors": [{"file": "interactions.py", "symbols": ["compute_dynamic_interactions", "compute_spin_flip", "add_spin_flip"]}]}
{"id": "C38", "title": "The Hamiltonian conserves the total spin", "statement": "On an unrestricted rectangular lattice, when the static spin and the spin-flip terms are both on or both off, the matrix of build_hamiltonian commutes with the operator computed by compute_S2, so eigenstates can be labelled by the total spin.", "quantifier": "all rectangle sizes, particle numbers, couplings, switches, vectors", "why_tests_cant": "A commutation relation between operators of unbounded dimension for all couplings.", "anchors": [{"file": "hamiltonianConstruction.py", "symbols": ["build_hamiltonian"]}, {"file": "interactions.py", "symbols": ["compute_S2"]}]}
{"id": "C39", "title": "S+S- acts on the intended basis vectors", "statement": "compute_S_plus_S_minus(conf, v, i, j) returns, for an unrestricted configuration, the vector in which the coefficient of each determinant with a down spin on i and an up spin on j has been moved to the determinant with these spins exchanged, without exception, whatever the order in which Python iterates over sets.", "quantifier": "all configurations, vectors, pairs of sites, set iteration orders", "why_tests_cant": "Whether the hole list comes out sorted depends on the hash table of the interpreter and on the site numbers.", "anchors": [{"file": "interactions.py", "symbols": ["compute_S_plus_S_minus", "compute_S_plus_S_minus_det"]}, {"file": "baseConstruction.py", "symbols": ["compute_hash_table"]}]}
{"id": "C40", "title": "compute_S2 is the total spin operator", "statement": "compute_S2 acts as the sum over pairs of electrons of (exchange of the two spins - 1/2) plus 3/4 per electron; it is a symmetric operator, has expectation value at least m(m+1) with m = |Sz|, and equals S(S+1) with S = N/2 on every vector when all spins are parallel.", "quantifier": "all configurations, all vectors", "why_tests_cant": "Operator identities and lower bounds for all vectors.", "anchors": [{"file": "interactions.py", "symbols": ["compute_S2", "compute_S2_exp_val"]}]}
{"id": "C41", "title": "Spin number and multiplicity name", "statement": "When <S^2> = s(s+1) for a half-integer s >= 0, compute_spin_number returns s whichever order the two roots come in, and compute_spin_multiplicity(s) returns the name of 2s+1 (singlet ... quintet, multiplet); in general the returned number is half an integer within 1/4 of the exact root.", "quantifier": "all half-integers s, all real expectation values >= 0, both root orders", "why_tests_cant": "Rounding behaviour for all values and unspecified root order of numpy.", "anchors": [{"file": "interactions.py", "symbols": ["compute_spin_number", "compute_spin_multiplicity"]}]}
{"id": "C42", "title": "Occupation probabilities are probabilities", "statement": "For every non-zero vector the values of get_probability_spin_lattice are between 0 and 1, the three species sum to 1 on every site, each species sums over sites to its particle number, and the reverse_spins flag exchanges the up and down tables.", "quantifier": "all configurations, all non-zero vectors, all sites", "why_tests_cant": "Identities for all real vectors.", "anchors": [{"file": "baseConstruction.py", "symbols": ["get_probability_spin_lattice", "get_spins_probabilitites_lattice"]}]}
{"id": "C43", "title": "Occupation probabilities on the rectangular picture", "statement": "get_probability_spin_rectangular_lattice places the probability of site (x, y) in row H-1-y and column x, and its values summed over the three species are 1 at every place for every non-zero vector.", "quantifier": "all rectangle sizes, all non-zero vectors", "why_tests_cant": "Normalised vectors used in tests hide a wrong normalisation.", "anchors": [{"file": "baseConstruction.py", "symbols": ["get_probability_spin_rectangular_lattice"]}]}
{"id": "C44", "title": "get_dominant_determinants returns the largest coefficients with distinct determinants", "statement": "get_dominant_determinants returns min(ndet, dim) coefficients of decreasing modulus such that no omitted coefficient is larger, together with the determinants that carry them, each determinant at most once.", "quantifier": "all vectors, all ndet", "why_tests_cant": "Ties between coefficients (frequent by symmetry) must be covered.", "anchors": [{"file": "baseConstruction.py", "symbols": ["get_dominant_determinants"]}]}
{"id": "C45", "title": "get_most_dominant_determinants returns distinct dominant determinants even with ties", "statement": "initialComputations.get_most_dominant_determinants terminates without exception and returns min(nb_det, dim) entries with distinct positions, in decreasing modulus, each with its coefficient and determinant, such that no omitted coefficient has larger modulus.", "quantifier": "all vectors, all nb_det", "why_tests_cant": "The inner while loop has no explicit bound; ties and repeated values must be covered.", "anchors": [{"file": "initialComputations.py", "symbols": ["get_most_dominant_determinants"]}]}
{"id": "C46", "title": "Site-by-site display is faithful", "statement": "get_displayable_determinant returns one symbol per site, '0', '-' or '+', equal to the occupation of that site; two determinants with the same display have the same index. get_displayable_basis should return these displays for all determinants.", "quantifier": "all configurations and determinants", "why_tests_cant": "Quantifies over all determinants.", "anchors": [{"file": "baseConstruction.py", "symbols": ["get_displayable_determinant", "get_displayable_basis"]}]}
{"id": "C47", "title": "Rectangular display is faithful", "statement": "get_displayable_rectangular_lattice returns 2H-1 lines, the symbol of site (x, y) being at line 2(H-1-y), column 3x, so that the text determines the occupation of every site.", "quantifier": "all rectangle sizes with at least one row and column, all determinants", "why_tests_cant": "Sizes are unbounded.", "anchors": [{"file": "baseConstruction.py", "symbols": ["get_displayable_rectangular_lattice"]}]}
{"id": "C48", "title": "get_lowests_eig selects the lowest eigenvalues with their vectors", "statement": "get_lowests_eig(vals, vects, nb) returns min(nb, n) values in increasing order such that every omitted value is at least the largest returned one; the k-th returned column belongs to the k-th returned value and no column is returned twice, also for repeated values.", "quantifier": "all value lists (with ties), all nb", "why_tests_cant": "Degenerate spectra are the rule in symmetric lattices; all tie patterns must be covered.", "anchors": [{"file": "davidson.py", "symbols": ["get_lowests_eig"]}]}
{"id": "C49", "title": "Orthonormalised corrections extend the search space orthonormally", "statement": "In exact arithmetic get_meaningful_corrections returns columns that are of norm one, orthogonal to each other and to the given orthonormal search space.", "quantifier": "all orthonormal search spaces and all correction blocks over the reals", "why_tests_cant": "Quantifies over all real matrices; includes the case where no correction survives.", "anchors": [{"file": "davidson.py", "symbols": ["get_meaningful_corrections", "perform_matrix_orthogonal_projection"]}]}
{"id": "C50", "title": "Davidson returns before its iteration budget only with converged eigenpairs", "statement": "In exact arithmetic, whatever the diagonaliser and orthonormaliser return, if modified_davidson_algorithm stops before using all its iterations, every returned pair satisfies ||lambda u - A u|| <= tol.", "quantifier": "all matrices, initial guesses, budgets, tolerances, and all results of the linear-algebra subroutines", "why_tests_cant": "Quantifies over all executions of an iterative algorithm.", "anchors": [{"file": "davidson.py", "symbols": ["modified_davidson_algorithm"]}]}
{"id": "C51", "title": "Ritz values never undershoot the spectrum", "statement": "In exact arithmetic, with an orthonormal search space (as after the first re-orthonormalisation), every value returned by modified_davidson_algorithm for a symmetric matrix lies between the smallest and the largest value of the Rayleigh quotient.", "quantifier": "all symmetric matrices, guesses, budgets, and all executions", "why_tests_cant": "Quantifies over all executions of an iterative algorithm.", "anchors": [{"file": "davidson.py", "symbols": ["modified_davidson_algorithm"]}]}
{"id": "C52", "title": "The Davidson search space is bounded", "statement": "During modified_davidson_algorithm the number of columns of the search space never exceeds min(dim, max(dim_max, 2 nb_val)).", "quantifier": "all dimensions, nb_val, dim_max, iteration counts", "why_tests_cant": "An invariant of all iterations.", "anchors": [{"file": "davidson.py", "symbols": ["modified_davidson_algorithm"]}]}
{"id": "C53", "title": "Deflating Davidson keeps values and vectors aligned", "statement": "In modified_davidson_algorithm_opt, after each iteration the k-th stored vector is the Ritz vector whose residual was accepted for the k-th stored value, and at most nb_val pairs are stored.", "quantifier": "all executions, all patterns of simultaneous convergence", "why_tests_cant": "Depends on which residuals converge in the same iteration.", "anchors": [{"file": "davidson.py", "symbols": ["modified_davidson_algorithm_opt"]}]}
{"id": "C54", "title": "Saved results load back unchanged", "statement": "load_data on the file written by save_data returns the same configuration (bond matrix, counts, site restriction, lattice type, block sizes), interactions, switches, determinants, Hamiltonian and eigenstates, so that every later computation gives the same result.", "quantifier": "all computed data", "why_tests_cant": "Serialisation must be faithful for all configurations, including restricted and non-periodic ones.", "anchors": [{"file": "initialComputations.py", "symbols": ["save_data", "recover_results", "load_data"]}, {"file": "baseConstruction.py", "symbols": ["Configuration.__to_json__"]}]}
{"id": "C55", "title": "Results of different computations go to different files", "statement": "save_data writes computations with different numbers of sites, up spins, down spins or different interaction switches to different file names; in particular the runs of one perform_configurations_computations sweep never overwrite each other.", "quantifier": "all particle numbers and switches", "why_tests_cant": "Collisions appear only for two-digit particle numbers and particular switches.", "anchors": [{"file": "initialComputations.py", "symbols": ["save_data", "perform_configurations_computations"]}]}
{"id": "C56", "title": "Embedding opens the file that the computation saved", "statement": "For every choice of interaction switches the file name from which embedding_neel and embedding_blocks load the block results is the one to which save_data wrote them.", "quantifier": "all switches, all particle numbers", "why_tests_cant": "Two independent pieces of code build the name; 2^6 switch combinations and all counts.", "anchors": [{"file": "embedding.py", "symbols": ["embedding_neel", "embedding_blocks"]}, {"file": "initialComputations.py", "symbols": ["save_data"]}]}
{"id": "C57", "title": "A sweep visits every spin sector exactly once", "statement": "perform_configurations_computations visits each split of the electrons into up and down spins exactly once and the dimensions of the visited sectors add up to C(nsites, nholes) * 2^(nsites-nholes).", "quantifier": "all nsites, nholes", "why_tests_cant": "A binomial identity for all sizes.", "anchors": [{"file": "initialComputations.py", "symbols": ["perform_configurations_computations"]}, {"file": "latticeFunctions.py", "symbols": ["compute_dimension"]}]}
{"id": "C58", "title": "The embedding pattern is an antiferromagnetic checkerboard", "statement": "The peripheral spins used by embedding_neel are down exactly on the peripheral sites with odd x+y, so any two bonded peripheral sites carry opposite spins, and the resulting determinant is a permutation of the peripheral sites with as many down spins as announced.", "quantifier": "all block sizes", "why_tests_cant": "Sizes are unbounded; parities of both sides matter.", "anchors": [{"file": "embedding.py", "symbols": ["embedding_neel"]}]}
{"id": "C59", "title": "The self-consistent border update assigns a probability law to every border site", "statement": "In embedding_neel with self-consistency, after each update every peripheral site has been assigned hole, up and down probabilities, and they are those of its unique neighbour in the block (up and down possibly exchanged), hence sum to one.", "quantifier": "all block sizes, all states, all iterations", "why_tests_cant": "Coverage of all border sites for all sizes.", "anchors": [{"file": "embedding.py", "symbols": ["embedding_neel"]}, {"file": "latticeFunctions.py", "symbols": ["build_bond_matrix_neel_embedding"]}]}
{"id": "C60", "title": "Embedding keeps the Hamiltonian symmetric", "statement": "The matrices diagonalised by embedding_neel and embedding_blocks are symmetric at every iteration whenever the block Hamiltonian is, for all probabilities and perturbation coefficients.", "quantifier": "all block Hamiltonians, environments, iterations", "why_tests_cant": "Invariant over all iterations of the self-consistent loop.", "anchors": [{"file": "embedding.py", "symbols": ["embedding_neel", "embedding_blocks"]}, {"file": "hamiltonianConstruction.py", "symbols": ["add_ham_coo"]}]}
{"id": "C61", "title": "Static block dressing is rotation invariant", "statement": "On a square block with embedding on all four sides, the static dressing added by embedding_blocks to a determinant equals the one added to any rotated copy of it.", "quantifier": "all square sizes, determinants, probabilities", "why_tests_cant": "Quantifies over all determinants and probabilities.", "anchors": [{"file": "embedding.py", "symbols": ["embedding_blocks"]}, {"file": "baseConstruction.py", "symbols": ["rotate_determinant"]}]}
{"id": "C62", "title": "Spin exchange across two blocks conserves the total counts", "statement": "When embedding_blocks exchanges spins across the frontier of block A and its neighbour B, the perturbed configurations of A and B have together the same numbers of holes, up and down spins as before, and the perturbed determinants are determinants of the perturbed configurations.", "quantifier": "all particle numbers of A and B, including reversed neighbours", "why_tests_cant": "The reversed-neighbour case with nalpha != nbeta is not reached by the tests.", "anchors": [{"file": "embedding.py", "symbols": ["embedding_blocks"]}]}
{"id": "C63", "title": "The self-consistent block embedding returns only converged results", "statement": "embedding_blocks returns results only when the relative change of the ground state in the last iteration is below the tolerance; in all executions it stops after at most max_iter diagonalisations, and when max_iter is used up without convergence the caller still gets the last results (as in embedding_neel).", "quantifier": "all executions and thresholds", "why_tests_cant": "Quantifies over all sequences of ground states.", "anchors": [{"file": "embedding.py", "symbols": ["embedding_blocks"]}]}
{"id": "C64", "title": "Spectrum degeneracies are multiplicities", "statement": "The levels and degeneracies computed by save_spectrum are the distinct values of the list of energies with the number of times each occurs; degeneracies add up to the number of energies.", "quantifier": "all lists of energies", "why_tests_cant": "The algorithm mutates lists while scanning; all tie patterns must be covered.", "anchors": [{"file": "postProcessing.py", "symbols": ["save_spectrum"]}]}
{"id": "C65", "title": "Amplitude repartition is the counting function", "statement": "The curve computed by plot_determinants_amplitude_repartition gives at each abscissa the number of determinants whose coefficient has modulus at least that abscissa (boundary value included), is non-increasing, and starts at the dimension.", "quantifier": "all vectors, all abscissae", "why_tests_cant": "Quantifies over all vectors.", "anchors": [{"file": "postProcessing.py", "symbols": ["plot_determinants_amplitude_repartition"]}]}
{"id": "C66", "title": "Side-by-side display of two blocks is faithful", "statement": "get_displayable_neighbor on two rectangular blocks with the same number H of rows returns 2H-1 lines terminated by a newline; the symbol of site (x, y) of the first block (W_A columns) is at line 2(H-1-y), column 3x, that of site (x, y) of the second block at the same line, column 3(W_A+x)-1.", "quantifier": "all pairs of rectangle sizes with equal number of rows, all determinants", "why_tests_cant": "the sizes and determinants are unbounded; the text is assembled by splitting two other texts character by character", "anchors": [{"file": "baseConstruction.py", "symbols": ["get_displayable_neighbor"]}]}
{"id": "C67", "title": "The lowest Davidson value never increases with the number of iterations", "statement": "In exact arithmetic, for a symmetric matrix and an orthonormal start, running modified_davidson_algorithm with a larger iteration budget never returns a larger lowest value (restarts included). It is at most the Rayleigh quotient of every combination of the columns of the initial guess.", "quantifier": "all symmetric matrices, all budgets, all guesses, all tolerances and dimension limits", "why_tests_cant": "monotonicity over all matrices and all numbers of iterations", "anchors": [{"file": "davidson.py", "symbols": ["modified_davidson_algorithm"]}]}
{"id": "C68", "title": "A converged Davidson value is close to an eigenvalue", "statement": "In exact arithmetic, with an orthonormal search space (as in C51), if modified_davidson_algorithm reports convergence for a symmetric matrix, each returned value has an eigenvalue of the matrix at distance at most the tolerance.", "quantifier": "all symmetric matrices, all tolerances", "why_tests_cant": "quantifies over all matrices", "anchors": [{"file": "davidson.py", "symbols": ["modified_davidson_algorithm"]}]}
{"id": "C69", "title": "Davidson converges within dim/nb_val iterations if restarts are excluded", "statement": "In exact arithmetic, with a dimension limit of at least dim + nb_val and a budget of at least dim / nb_val iterations, modified_davidson_algorithm reports convergence for every symmetric matrix.", "quantifier": "all symmetric matrices, 2 <= nb_val <= dim, all tolerances >= 0", "why_tests_cant": "termination by growth of the search space, for all matrices", "anchors": [{"file": "davidson.py", "symbols": ["modified_davidson_algorithm"]}]}
{"id": "C70", "title": "The single-vector Davidson only returns converged pairs", "statement": "davidson_algorithm returns only pairs whose residue, for the value before rounding, is within the tolerance; with stp = 0 it never returns if the start vector has a residue above the tolerance.", "quantifier": "all matrices, all library behaviours, all numbers of turns", "why_tests_cant": "the while loop has no bound", "anchors": [{"file": "davidson.py", "symbols": ["davidson_algorithm"]}]}
{"id": "C71", "title": "gramSchmidt orthonormalises", "statement": "gramSchmidt returns orthonormal columns such that for each k the first k columns span the same space as the first k given independent columns.", "quantifier": "all arrays with independent columns", "why_tests_cant": "all sizes", "anchors": [{"file": "davidson.py", "symbols": ["gramSchmidt"]}]}
{"id": "C72", "title": "A sweep keeps the lattice type", "statement": "All configurations of a perform_configurations_computations sweep have the lattice type of the given configuration.", "quantifier": "all configurations", "why_tests_cant": "quantifies over all configurations and sectors", "anchors": [{"file": "initialComputations.py", "symbols": ["perform_configurations_computations"]}]}
{"id": "C73", "title": "The Néel embedding adds exactly the border interaction", "statement": "In every iteration of embedding_neel the diagonalised matrix is the Hamiltonian of the block with, on the diagonal, the interaction of each determinant with the border: -J/2 per antiparallel bond, VNN per bond between holes, VNNNper per pair of holes across a tile; off-diagonal elements are unchanged.", "quantifier": "all rectangular blocks with at least two rows and columns, all occupations, all interactions, all diagonalisation results, all iterations", "why_tests_cant": "all lattices and all states of the border", "anchors": [{"file": "embedding.py", "symbols": ["embedding_neel"]}]}
{"id": "C74", "title": "Static dressing of embedding_blocks", "statement": "If is_bond_linear finds the geometry of the two joined blocks (C21), then in every iteration of embedding_blocks without dynamical effects, the diagonalised matrix is the Hamiltonian of the block whose diagonal is increased, for each determinant, by its interaction with the neighbouring block in the state found by the iteration before (spins reversed if asked): -J/2 per antiparallel bond, VNN per bond between holes, VNNNper per pair of holes across a tile. With one neighbour this is the block on the right; otherwise, for square blocks, the sum over the four rotations of the block.", "quantifier": "all rectangular blocks (square ones with four neighbours), particle numbers, interactions, diagonalisation results and numbers of iterations", "why_tests_cant": "the number of iterations, the states and the lattice sizes are unbounded", "anchors": [{"file": "embedding.py", "symbols": ["embedding_blocks"]}]}
{"id": "C75", "title": "Bars of the determinants plot are the largest weights", "statement": "plot_embedding_effect_on_determinants draws, for the n determinants it selects, the n largest squared amplitudes of the embedded ground state, each determinant once.", "quantifier": "all vectors, all n up to the dimension", "why_tests_cant": "all real vectors, ties included", "anchors": [{"file": "postProcessing.py", "symbols": ["plot_embedding_effect_on_determinants"]}]}
{"id": "C76", "title": "Reorganising spectrum curves stops and keeps the points", "statement": "The exchanges of curve ends in plot_spectrum_dependance stop, and at every abscissa the curves carry the same points (energy, multiplicity, degeneracy) as before; the test before an exchange accepts it exactly when it increases the variation of slope of both curves.", "quantifier": "all families of curves of equal length", "why_tests_cant": "unbounded loop over all families of curves", "anchors": [{"file": "postProcessing.py", "symbols": ["plot_spectrum_dependance"]}]}
{"id": "C77", "title": "Plots open the files that were written", "statement": "generate_plots opens the files written for the same lattice and switches by the sweep, by embedding_blocks and by embedding_neel.", "quantifier": "all configurations, switches and options", "why_tests_cant": "all configurations and option sets", "anchors": [{"file": "postProcessing.py", "symbols": ["generate_plots", "generate_plots_configuration"]}]}
{"id": "C78", "title": "Subplots fit in their grid", "statement": "The subplots of the hole densities and amplitude plots are put in pairwise distinct cells inside the grid, for every number of subplots.", "quantifier": "all numbers of subplots", "why_tests_cant": "all naturals; small numbers raise errors", "anchors": [{"file": "postProcessing.py", "symbols": ["save_hole_probability_lattice", "plot_determinants_amplitude_repartition"]}]}
{"id": "C79", "title": "The stored Hamiltonian is the diagonalised one", "statement": "The Hamiltonian that embedding_neel and embedding_blocks return and save is the matrix whose eigenstates they return.", "quantifier": "all blocks, interactions and diagonalisation results", "why_tests_cant": "needs a link between two outputs for all runs", "anchors": [{"file": "embedding.py", "symbols": ["embedding_neel", "embedding_blocks"]}]}
{"id": "C80", "title": "perform_initial_computations returns eigenstates of the t-J operator", "statement": "On a rectangular lattice with the full set of determinants perform_initial_computations succeeds whenever the starting guess has the right shape (and, if spin numbers are asked for, sets enumerate the holes in increasing order, see C39 and C81), returns as many eigenvalues and eigenvectors as asked, and, when it reports convergence, each eigenvector read as a function on spin configurations lies in the sector of the configuration, has a residue with respect to the t-J operator of norm at most the tolerance, each eigenvalue lies within the tolerance of an exact eigenvalue of that operator in the sector, and then the spin number written for a spin eigenvector is the right one.", "quantifier": "all rectangular configurations, interactions, tolerances, iteration limits and starting guesses", "why_tests_cant": "relates the output of the whole pipeline to an operator on configurations for lattices of any size", "anchors": [{"file": "initialComputations.py", "symbols": ["perform_initial_computations"]}]}
{"id": "C81", "title": "compute_S2 run by CPython", "statement": "With the order in which CPython iterates sets, compute_S2 is the total spin operator on every vector exactly if all spins are parallel, or there is at most one hole, or the lattice has at most as many sites as the table of a set with that many holes has slots (8 slots for up to 4 holes, 32 for 5 to 18, 128 for 19 to 76 and so on). The tables list every element of a set, an intersection and a difference exactly once, and a set of k different numbers has a number of slots that depends on k only.", "quantifier": "all unrestricted configurations of any size, all determinants and vectors", "why_tests_cant": "the number of determinants grows exponentially and the failing ones are few", "anchors": [{"file": "interactions.py", "symbols": ["compute_S2"]}, {"file": "baseConstruction.py", "symbols": ["get_indexes_of"]}]}
{"id": "C82", "title": "The Davidson search space grows until dim_max", "statement": "In each iteration that has not converged the next search space is orthonormal and contains the Ritz vectors and the Davidson corrections (residues divided by diagonal minus Ritz value); it extends the present search space by nb_val vectors as long as this does not exceed dim_max, and is restarted from the Ritz vectors and corrections otherwise.", "quantifier": "all symmetric matrices, starting guesses, tolerances and limits, every iteration", "why_tests_cant": "a statement about internal search spaces of every run", "anchors": [{"file": "davidson.py", "symbols": ["modified_davidson_algorithm"]}]}
{"id": "C83", "title": "Projection of a matrix on an orthogonal complement", "statement": "perform_matrix_orthogonal_projection returns the matrix of A in an orthonormal basis of the orthogonal complement of the given orthonormal vectors; if these are eigenvectors of a symmetric A, its eigenvalues are the remaining eigenvalues of A.", "quantifier": "all symmetric matrices and orthonormal families", "why_tests_cant": "quantifies over all matrices and families", "anchors": [{"file": "davidson.py", "symbols": ["perform_matrix_orthogonal_projection"]}]}
{"id": "C84", "title": "The display of the peripheral embedding is faithful", "statement": "get_displayable_outer_embedding_lattice returns a text of 2H+3 lines in which every site of the block and of the surrounding lattice has its symbol at the place given by its position in the plane; so the text determines the occupation of every site.", "quantifier": "all block dimensions, all determinants of the embedding", "why_tests_cant": "all sizes and all determinants", "anchors": [{"file": "baseConstruction.py", "symbols": ["get_displayable_outer_embedding_lattice"]}]}
{"id": "C85", "title": "compute_spin_and_multiplicity gives spin and name of every eigenvector", "statement": "compute_spin_and_multiplicity(basis, eigvects) returns for every column the expectation value of S^2 and the name of its multiplicity.", "quantifier": "all bases, all sets of vectors", "why_tests_cant": "all vectors", "anchors": [{"file": "davidson.py", "symbols": ["compute_spin_and_multiplicity"]}]}
{"id": "C86", "title": "Phase diagrams show energies and spins", "statement": "save_phase_space draws for every sector the energy and the spin of the chosen state at every point (V/J, t/J) of the grid.", "quantifier": "all lattices, couplings, states, grids", "why_tests_cant": "all couplings and grids", "anchors": [{"file": "postProcessing.py", "symbols": ["save_phase_space"]}]}
{"id": "C87", "title": "Sectors with up and down exchanged have the same spectrum", "statement": "On a rectangular lattice, with any couplings and any choice of the boolean switches, the Hamiltonian matrix built for nbeta down spins and the one built for nalpha down spins (same number of holes) have, for every number mu, eigenspaces of the same dimension.", "quantifier": "for all rectangular lattices, numbers of holes and down spins, couplings over any field, switches, set orders, and all mu", "why_tests_cant": "a test compares the spectra of one lattice in floating point; the claim is the equality of all multiplicities for all lattices and couplings", "anchors": [{"file": "hamiltonianConstruction.py", "symbols": ["build_hamiltonian"]}, {"file": "baseConstruction.py", "symbols": ["construct_basis"]}]}
{"id": "C88", "title": "Energies of a sector occur in every less polarised sector", "statement": "On a rectangular lattice, when the static and the flip part of the spin coupling are both on or both off, every energy of the sector with nbeta down spins is an energy, with at least the same multiplicity, of every sector with more down spins (up to the balanced one) and the same number of holes. With the static part alone this is false.", "quantifier": "for all rectangular lattices, numbers of holes and down spins, couplings over any ordered field, set orders, and all mu", "why_tests_cant": "the inclusion of spectra with multiplicities is a statement on all lattices; it rests on the lowering operator commuting with the matrix the code builds", "anchors": [{"file": "hamiltonianConstruction.py", "symbols": ["build_hamiltonian"]}, {"file": "baseConstruction.py", "symbols": ["construct_basis"]}]}
{"id": "C89", "title": "Embedding results can be saved and loaded back", "statement": "save_data_peripheral_embedding and save_data_embedding_blocks write the results of an embedding so that load_data returns the same configuration data, couplings, switches, determinants, Hamiltonian arrays and eigenstates, and change no other file, whether or not the subdirectory exists.", "quantifier": "for all file systems with a directory ./initialComputations, all results on a lattice with at least one site, all options", "why_tests_cant": "the state of the directory, the options and the results range over infinite sets; the failing case needs a Data object with an initial guess that never passed through save_data", "anchors": [{"file": "embedding.py", "symbols": ["save_data_peripheral_embedding", "save_data_embedding_blocks"]}, {"file": "initialComputations.py", "symbols": ["load_data"]}]}
{"id": "C90", "title": "The embeddings start from the results that save_data wrote", "statement": "After save_data, embedding_neel and embedding_blocks load exactly the determinants, Hamiltonian and eigenstates of that computation, and the embedding results can be saved with the same Data object.", "quantifier": "for all file systems, results, initial guesses and switches", "why_tests_cant": "the chain works for the default switches used in main.py and fails for all others", "anchors": [{"file": "initialComputations.py", "symbols": ["save_data"]}, {"file": "embedding.py", "symbols": ["embedding_neel", "embedding_blocks"]}]}
{"id": "C91", "title": "Products of spin projections", "statement": "compute_spins_z_two_bodies applies the product of the spin projections of two sites to a state; the sum over all pairs of sites is the square of the number that compute_spin_z returns, and compute_spin_z multiplies the state by the total projection. A site outside the lattice raises ValueError.", "quantifier": "for all configurations with nholes + nbeta <= nsites, all states over any field, all pairs of sites", "why_tests_cant": "the test of the project compares one vector on one lattice; the claim ranges over all states and uses the un-ranking of basis elements", "anchors": [{"file": "interactions.py", "symbols": ["compute_spin_z", "compute_spins_z_two_bodies", "compute_spins_z_two_bodies_det"]}]}
{"id": "C92", "title": "The Néel embedding always returns", "statement": "The diagonalisation called by embedding_neel gives, for every matrix of the dimension of the block, at least one eigenvalue and a non-zero ground state of the right length, so the 'while True' loop around it runs exactly once; embedding_neel therefore returns a result, without an exception, for every rectangular block with at least two rows and columns, every legal filling and every Hamiltonian of the block.", "quantifier": "for all block sizes (at least 2x2), fillings, Hamiltonians within their dimension, interactions, tolerances, numbers of states between 1 and the dimension, numbers of steps and iterations at least 1, and all libraries with orthonormal QR factors, non-zero eigenvectors and non-zero random vectors", "why_tests_cant": "a test runs one block and one library; that no lookup fails, that no iteration leaves the domain of the next one, and that the inner loop never repeats is a statement about all of them", "anchors": [{"file": "embedding.py", "symbols": ["embedding_neel"]}, {"file": "davidson.py", "symbols": ["modified_davidson_algorithm"]}]}
{"id": "C93", "title": "The static block embedding always ends", "statement": "If is_bond_linear finds the geometry of the two joined blocks (C21), embedding_blocks without dynamical effects ends without an exception and without an endless loop, either with the data of the embedded block or with None when the iterations are used up, for every unrestricted rectangular block (a square one when there are blocks on all sides), every legal filling and every non-zero ground state of the isolated block.", "quantifier": "for all block sizes, fillings, Hamiltonians within their dimension, interactions, tolerances, options (one or four neighbours, spins reversed or not), numbers of steps and iterations at least 1, and all libraries with orthonormal QR factors and non-zero eigenvectors", "why_tests_cant": "a test runs one block; that the rotated indices, the frontiers and the reversed basis never lead outside a list or a matrix is a statement about all block sizes and fillings", "anchors": [{"file": "embedding.py", "symbols": ["embedding_blocks"]}, {"file": "davidson.py", "symbols": ["modified_davidson_algorithm"]}]}
{"id": "C94", "title": "Density plots show each site at its place", "statement": "In the hole and electron density plots, the value drawn at the point (x, y) of a normalised state is the probability of the site with coordinates (x, y).", "quantifier": "for all rectangular lattices, fillings, states and species", "why_tests_cant": "lattices, fillings and states are unbounded, and on the usual symmetric eigenstates an upside-down picture looks right", "anchors": [{"file": "postProcessing.py", "symbols": ["save_hole_probability_lattice", "save_electron_probability_lattice"]}, {"file": "baseConstruction.py", "symbols": ["get_probability_spin_rectangular_lattice"]}]}
{"id": "C95", "title": "The hole density picture is saved", "statement": "save_hole_probability_lattice computes one panel per state, each in its own cell, and saves the picture.", "quantifier": "for all rectangular lattices, fillings, states, numbers of subplots and switches", "why_tests_cant": "all inputs; the failure is in the last lines and would need a run with matplotlib", "anchors": [{"file": "postProcessing.py", "symbols": ["save_hole_probability_lattice"]}, {"file": "initialComputations.py", "symbols": ["BoolInteractions"]}]}
{"id": "C96", "title": "The panel 'Charge density' shows the charge", "statement": "The third panel of save_electron_probability_lattice shows the density of the electrons, i.e. 1 minus the density of the holes.", "quantifier": "for all rectangular lattices, fillings, states", "why_tests_cant": "fillings and states are unbounded", "anchors": [{"file": "postProcessing.py", "symbols": ["save_electron_probability_lattice"]}]}
{"id": "C97", "title": "Electron density pictures do not overwrite each other", "statement": "The pictures of save_electron_probability_lattice for different states, lattices and sectors have different names.", "quantifier": "for all numbers of sites, up spins, down spins and states", "why_tests_cant": "all naturals; the first collision needs 11 electrons", "anchors": [{"file": "postProcessing.py", "symbols": ["save_electron_probability_lattice"]}]}
{"id": "C98", "title": "Mirrors and turns of the rectangle are symmetries", "statement": "The Hamiltonian matrix of a rectangular lattice does not change when both determinants are moved by a symmetry of the rectangle (left-right and top-bottom mirrors, and quarter turns for squares), and a state whose energy is not degenerate has the same hole, up and down densities on sites that correspond by such a symmetry.", "quantifier": "for all rectangular lattices, fillings, couplings, switches, symmetries (all products of mirrors and turns), pairs of determinants and eigenvectors", "why_tests_cant": "lattices, couplings and products of symmetries are unbounded; a test compares one matrix with one image", "anchors": [{"file": "hamiltonianConstruction.py", "symbols": ["build_hamiltonian"]}, {"file": "baseConstruction.py", "symbols": ["get_probability_spin_lattice"]}]}
{"id": "C99", "title": "Every Davidson value is an upper bound of its eigenvalue", "statement": "In exact arithmetic, with an orthonormal search space, the value number k returned by modified_davidson_algorithm for a symmetric matrix is at least the eigenvalue number k in increasing order (with multiplicity), converged or not: at least k + 1 eigenvalues lie at or below it. In particular no more values are returned than the matrix has rows.", "quantifier": "all symmetric matrices, guesses, budgets, tolerances, dimension limits, all orthonormal eigenbases and all k", "why_tests_cant": "Quantifies over all matrices and all executions of an iterative algorithm.", "anchors": [{"file": "davidson.py", "symbols": ["modified_davidson_algorithm", "get_lowests_eig"]}]}
{"id": "C100", "title": "No Davidson value increases with the number of iterations", "statement": "In exact arithmetic, for a symmetric matrix and an orthonormal start, running modified_davidson_algorithm with a larger iteration budget returns, for every k, a value number k that is not larger (restarts included).", "quantifier": "all symmetric matrices, all budgets, all guesses, all tolerances and dimension limits, all k", "why_tests_cant": "monotonicity over all matrices and all numbers of iterations", "anchors": [{"file": "davidson.py", "symbols": ["modified_davidson_algorithm", "get_lowests_eig"]}]}
{"id": "C101", "title": "The curves of the spectrum against t/J", "statement": "When the sweep of plot_spectrum_dependance ends, each of its two sets of curves has one curve per requested state; curve k has exactly one point per ratio when the run computes state k and none otherwise. Point i of curve k consists of the k-th energy at the i-th ratio (rounded to six decimals), the multiplicity of that state, and the number of returned states with the same rounded energy; the first set uses the couplings without the extension terms, the second one those with them.", "quantifier": "all data sets, numbers of ratios, set iteration orders and linear algebra libraries (which may differ at every ratio)", "why_tests_cant": "Quantifies over all couplings, lattices and library behaviours; a sweep of 1000 diagonalisations cannot be checked exhaustively.", "anchors": [{"file": "postProcessing.py", "symbols": ["plot_spectrum_dependance"]}, {"file": "initialComputations.py", "symbols": ["perform_initial_computations"]}]}
{"id": "C102", "title": "The sweep rescales all exchange couplings together", "statement": "At the ratio t/J the sweep keeps t and the long-range couplings, sets J = |t| / (t/J), and multiplies every other exchange coupling by the same factor: the Hamiltonian is the motion part plus |t| / ((t/J) J) times the exchange part, entry by entry. With J = 0 in the input the sweep stops with ZeroDivisionError.", "quantifier": "all couplings with J not zero, all ratios > 0, all lattices, bases and switches", "why_tests_cant": "Linearity of the whole Hamiltonian over all bases and couplings.", "anchors": [{"file": "postProcessing.py", "symbols": ["plot_spectrum_dependance"]}, {"file": "hamiltonianConstruction.py", "symbols": ["build_hamiltonian"]}]}
{"id": "C103", "title": "Both spectra against t/J are saved", "statement": "plot_spectrum_dependance saves one picture without and one with the extension terms, each with one line per requested state, and at every ratio the drawn energies are those computed.", "quantifier": "all data sets, numbers of ratios >= 1 and libraries", "why_tests_cant": "Quantifies over all data sets; the failing branches depend on the spin and degeneracy of computed states.", "anchors": [{"file": "postProcessing.py", "symbols": ["plot_spectrum_dependance"]}]}
{"id": "C104", "title": "The energies do not depend on the sign of t", "statement": "On a rectangular lattice the Hamiltonian built with t and the one built with -t, all other couplings and all switches unchanged, have the same eigenvalues with the same multiplicities, in every sector. The opposite of all other couplings, with the same t, gives the opposite eigenvalues with the same multiplicities; with the hopping alone the spectrum is symmetric about zero.", "quantifier": "all rectangular lattices, numbers of holes and down spins, couplings (over any field), switches, set iteration orders and eigenvalues", "why_tests_cant": "Quantifies over all lattices and couplings and compares exact multiplicities; a test diagonalises a few small matrices up to rounding.", "anchors": [{"file": "hamiltonianConstruction.py", "symbols": ["build_hamiltonian"]}, {"file": "interactions.py", "symbols": ["add_hopping_integral"]}]}
{"id": "C105", "title": "All spin sectors share the lowest energy without antiferromagnetic couplings", "statement": "With J, Jhpar, Jhper not positive (or both parts of the spin coupling off), no singlet displacement and tNNN, tnNNN not positive, all spin sectors with the same number of holes of a rectangular lattice have the same lowest energy, for every t and every repulsion.", "quantifier": "all rectangular lattices, numbers of holes, pairs of numbers of down spins and real couplings with these signs", "why_tests_cant": "A statement about the exact lowest eigenvalues of matrices of unbounded size, for a continuum of couplings.", "anchors": [{"file": "hamiltonianConstruction.py", "symbols": ["build_hamiltonian"]}, {"file": "interactions.py", "symbols": ["add_hopping_integral", "add_next_hopping_integral", "add_static_spin_interaction", "add_spin_flip"]}]}
{"id": "C106", "title": "What the dynamic part of the embedding in blocks adds", "statement": "If is_bond_linear finds the geometry of the two joined blocks (C21), then for each determinant of the block the dynamic part of embedding_blocks adds exactly the second-order couplings through the states in which an electron of the neighbour has come over one or two bonds onto a hole of the block: for every such state once, and for every pair of different states of the two blocks reached from it by an electron of the same spin going back, the product of the two hopping amplitudes and of the two coefficients of the neighbour, divided by twice the energy minus the energy of the intermediate state, if it reaches the threshold, once per orientation of the neighbour. Exchanges of two spins and electrons that leave the block add nothing. The added matrix is symmetric, does not depend on the sign of the ground state and is zero without holes.", "quantifier": "all rectangular blocks, fillings (neighbour with the same numbers of particles), couplings over any linearly ordered field, states, energies, thresholds, determinants, one neighbour or (square blocks) neighbours on four sides, set iteration orders", "why_tests_cant": "The sum runs over all pairs of states of two blocks of any size; the code visits the same intermediate state along many paths and must count it once, which a test sees only on the few small blocks where the sum can be done by hand.", "anchors": [{"file": "embedding.py", "symbols": ["embedding_blocks"]}, {"file": "interactions.py", "symbols": ["compute_dynamic_interactions", "compute_energy"]}]}
{"id": "C107", "title": "The matrices diagonalised by the embedding in blocks with dynamical effects", "statement": "If is_bond_linear finds the geometry of the two joined blocks (C21), with dynamical effects and a neighbour that has the particles of the block, embedding_blocks always ends, and in every iteration the diagonalised matrix is the Hamiltonian of the block, plus the interaction with the neighbour on the diagonal, plus the couplings of C106 summed over all determinants of the block, computed with the state and the lowest eigenvalue of the iteration before.", "quantifier": "all rectangular blocks (square ones for four neighbours), fillings, couplings, numbers of iterations, thresholds, diagonalisations that return vectors of the right length (for the return: libraries with exact QR and non-zero eigenvectors)", "why_tests_cant": "A statement about every iteration of a self-consistent loop, for all sizes and couplings; a test sees the end result of a few runs.", "anchors": [{"file": "embedding.py", "symbols": ["embedding_blocks"]}]}
{"id": "C108", "title": "The point of the phase diagram is computed with its own couplings", "statement": "The value drawn by save_phase_space at the point (V/J, t/J) of its axes belongs to the Hamiltonian whose hopping integral is that t/J times J and whose hole repulsion is that V/J times J.", "quantifier": "all rectangular unrestricted configurations, couplings with J not zero, numbers of points of both axes, points of the grid", "why_tests_cant": "The pictures show numbers without the couplings they come from, and for any single point the wrong coupling looks as plausible as the right one; the statement is about all points of all grids.", "anchors": [{"file": "postProcessing.py", "symbols": ["save_phase_space"]}, {"file": "hamiltonianConstruction.py", "symbols": ["build_hamiltonian"]}]}
{"id": "C109", "title": "Marshall's sign rule and the unique lowest state without holes", "statement": "Without holes and with an antiferromagnetic coupling J > 0 the lowest eigenvalue of the Hamiltonian of a sector is simple, none of the coefficients of its eigenvector is zero, and the sign of a coefficient is, up to a common sign, that of the number of down spins on the black fields of the checkerboard.", "quantifier": "all rectangular unrestricted configurations without holes, numbers of down spins, couplings with J > 0, selections of interactions with the spin flips on, set iteration orders", "why_tests_cant": "It is a statement about all coefficients of the exact ground state for all sizes of lattices; a test can diagonalise only the smallest ones and sees signs of rounded numbers.", "anchors": [{"file": "hamiltonianConstruction.py", "symbols": ["build_hamiltonian"]}, {"file": "baseConstruction.py", "symbols": ["construct_basis"]}, {"file": "interactions.py", "symbols": ["compute_spin_flip", "add_spin_flip"]}]}
{"id": "C110", "title": "Total spin and order of the lowest states without holes", "statement": "Without holes and with an antiferromagnetic coupling J > 0 the lowest state of the sector with nalpha up spins and nbeta down spins has the total spin |nalpha - nbeta|/2, which is the number compute_spin_number returns for it, and the lowest energy of a sector is strictly lower the closer nbeta is to half of the sites.", "quantifier": "all rectangular unrestricted configurations without holes, numbers of down spins, couplings with J > 0, selections of interactions with both parts of the spin coupling on, set iteration orders", "why_tests_cant": "The theorem compares exact ground states of sectors of any size; tests see rounded energies of the few sectors that can be diagonalised, where a strict inequality and a degeneracy look the same.", "anchors": [{"file": "hamiltonianConstruction.py", "symbols": ["build_hamiltonian"]}, {"file": "interactions.py", "symbols": ["compute_spin_number", "compute_S2", "compute_S2_exp_val"]}]}
{"id": "C111", "title": "The unique ferromagnetic ground state with holes", "statement": "With the spin flips on and ferromagnetic couplings (J, Jhpar, Jhper < 0), without singlet displacement, with next-nearest-neighbour hopping integrals that are not positive, and with t not zero when there are holes, the lowest eigenvalue of the Hamiltonian of a sector is simple, none of the coefficients of its eigenvectors is zero, their signs are equal for t < 0 and given by the number of holes on black fields of the checkerboard for t > 0, with the static part on as well the total spin is half of the number of electrons, and compute_spin_number yields it whenever sets enumerate the holes in increasing order (always with at most one hole).", "quantifier": "all rectangular unrestricted configurations with any numbers of holes and down spins, all such couplings, both signs of t, all repulsions, all eigenvectors of the lowest eigenvalue", "why_tests_cant": "Uniqueness and signs are statements about a continuum of couplings and lattices of every size; diagonalising examples shows a small gap at best and rounding hides degeneracies.", "anchors": [{"file": "hamiltonianConstruction.py", "symbols": ["build_hamiltonian"]}, {"file": "interactions.py", "symbols": ["compute_spin_number"]}, {"file": "baseConstruction.py", "symbols": ["construct_basis"]}]}
{"id": "C112", "title": "The compressed rows stand for the Hamiltonian", "statement": "The three arrays data, indices and indptr of the csr_matrix that build_hamiltonian returns are in canonical form (pointers from 0 to the number of values, columns in range and strictly increasing in each row, duplicates added), pass the checks of csr_matrix when they are restored from a file, stand on unrestricted rectangular lattices for the textbook t-J Hamiltonian, and the products A.dot(x) and the diagonal read by modified_davidson from them are those of this matrix.", "quantifier": "all configurations, lists of determinants, couplings, switches and vectors for the form, the products and the diagonal; all unrestricted rectangular lattices for the values; all correct sorting procedures of a row", "why_tests_cant": "The arrays depend on every duplicated triple of every lattice; tests compare dense copies of small matrices and do not see the arrays.", "anchors": [{"file": "hamiltonianConstruction.py", "symbols": ["build_hamiltonian"]}, {"file": "initialComputations.py", "symbols": ["save_data", "recover_results"]}, {"file": "davidson.py", "symbols": ["modified_davidson_algorithm"]}]}
{"id": "C113", "title": "A sweep leaves the results of every sector in its file", "statement": "perform_configurations_computations ends without exception, and afterwards load_data of the file of each sector with a up spins and b down spins returns what was computed for this sector: its basis, the Hamiltonian of this sector, the requested number of energies, states and spin numbers; no other file is changed.", "quantifier": "all unrestricted rectangular lattices, numbers of holes, couplings, switches, numbers of eigenpairs and steps, contents of the results directory, and all exact QR factorisations; partial: numbers of electrons whose splittings into up and down spins are distinguished by their digits (all up to 10, and up to 110 all that are not 11y + z with one-digit y, z), holes enumerated in increasing order if spin numbers are asked for and nb_val or dim_max not larger than the smallest sector", "why_tests_cant": "The names of the files collide first for 11 electrons, where a sweep takes hours; a test of a small lattice does not reach it.", "anchors": [{"file": "initialComputations.py", "symbols": ["perform_configurations_computations", "perform_initial_computations", "save_data", "load_data"]}]}
{"id": "C114", "title": "The pictures of every sector show its results", "statement": "After a sweep, generate_plots ends without exception; every picture that was asked for (spectrum, electrons in each of the nb_excited first states, amplitudes, holes) exists under its name and shows the energies, probabilities and amplitudes computed for its sector, and no other picture is changed.", "quantifier": "all unrestricted rectangular lattices, numbers of holes, couplings, switches, earlier contents of the directories, numbers of states and of plots; partial: numbers of electrons whose splittings into up and down spins are distinguished by their digits (all up to 10, and up to 110 all that are not 11y + z with one-digit y, z), holes enumerated in increasing order if spin numbers are asked for and without the pictures of the holes", "why_tests_cant": "A picture has to be looked at; that it belongs to the sector in its name, for each sector and each state, is not visible in it.", "anchors": [{"file": "postProcessing.py", "symbols": ["generate_plots", "generate_plots_configuration", "save_spectrum", "save_hole_probability_lattice", "save_electron_probability_lattice", "plot_determinants_amplitude_repartition", "InputPlotting"]}, {"file": "initialComputations.py", "symbols": ["perform_configurations_computations", "load_data"]}]}
{"id": "C115", "title": "The energies fall with the exchange and rise with the repulsion, without jumps", "statement": "When the exchange couplings J, Jhpar, Jhper are lowered or the repulsions VNN, VNNNper raised and nothing else is changed, no energy of the Hamiltonian becomes lower, and none rises by more than the change of the exchange times the number of bonds plus the changes of the repulsions times the numbers of neighbouring and of diagonal pairs; the lowest energy is a concave function of all the couplings together.", "quantifier": "all rectangular lattices, fillings, pairs of sets of couplings, selections of terms in which the spin flips come with the static part, and all orthonormal eigenbases with ascending energies; concavity for all selections", "why_tests_cant": "It compares all energies of two matrices of every size for every two sets of couplings; a test computes a few points of a curve.", "anchors": [{"file": "hamiltonianConstruction.py", "symbols": ["build_hamiltonian"]}, {"file": "interactions.py", "symbols": ["compute_static_spin_interaction", "compute_spin_flip", "compute_hole_repulsion"]}, {"file": "postProcessing.py", "symbols": ["save_phase_space"]}]}
{"id": "C116", "title": "The border of the Neel embedding moves the energies by a bounded amount", "statement": "In every iteration of embedding_neel each energy of the dressed block lies between the energy with the same number of the isolated block minus J/2 per border site and that energy plus 2 (VNN + VNNNper) per hole; without holes no energy is raised; the energies that embedding_neel returns obey the lower bound.", "quantifier": "all blocks with at least two rows and columns, fillings, symmetric Hamiltonians, couplings with J, VNN, VNNNper not negative, iterations, tolerances, and all solvers that give non-zero vectors; the returned energies for exact QR and eigh and at least two energies asked for", "why_tests_cant": "The bound holds for all iterations of a self-consistent loop from any start and for all energies at once.", "anchors": [{"file": "embedding.py", "symbols": ["embedding_neel"]}]}
{"id": "C117", "title": "The run of main.py ends with a faithful report and a file", "statement": "Once the isolated block has been computed and saved with all switches on, running main.py (embedding in a Néel border, then the report) raises no exception; it prints the lowest energy of the isolated block and the lowest energy of the embedded block, where the latter is the energy of a normalised state in the field of its border, then the largest coefficients of that state in decreasing order of modulus with pictures that show the occupation of every site; and the file it leaves gives back the determinants, the energies, the state and the Hamiltonian of the block.", "quantifier": "for all rectangular blocks with at least two rows and columns, all fillings, couplings, tolerances, iteration bounds, numbers of printed determinants, file systems with the directory, and all library functions with exact QR and eigenvectors and non-zero random vectors", "why_tests_cant": "a test runs one lattice with one random start; the claim is about every lattice, every stored result and every outcome of the random vectors and of the iteration", "anchors": [{"file": "main.py", "symbols": ["H1888", "data_computations_18_2", "most_dominant_dets"]}, {"file": "embedding.py", "symbols": ["embedding_neel", "save_data_peripheral_embedding"]}, {"file": "initialComputations.py", "symbols": ["load_data", "get_most_dominant_determinants"]}]}
{"id": "C118", "title": "Initial guesses made of determinants are orthonormal", "statement": "The guess matrix that main.py fills with ones at compute_hash_table(configuration, det) has, in the column of each determinant of the basis, a one in the row of this determinant and zeros elsewhere; different determinants give orthonormal columns, and the determinants listed in main.py are different elements of the basis.", "quantifier": "for all configurations, all lists of determinants of the basis and all widths not smaller than the list", "why_tests_cant": "the rows depend on the rank of each determinant among millions; a test samples a few determinants of a few lattices", "anchors": [{"file": "main.py", "symbols": ["initial_guess", "initial_guesses_det"]}, {"file": "baseConstruction.py", "symbols": ["compute_hash_table"]}]}
{"id": "C119", "title": "Spin projection and the selection matrices", "statement": "compute_ms gives the projection of the total spin of every determinant with these numbers of up and down spins; build_K_matrix selects the first two and the last two components of a vector and raises IndexError below two columns; build_L_matrix puts the second of four components in the first row and the third in the last row, and raises IndexError without rows.", "quantifier": "for all configurations and determinants, all dimensions and all vectors", "why_tests_cant": "every dimension is claimed, including the small ones where rows or columns coincide and the ones where indices leave the array", "anchors": [{"file": "latticeFunctions.py", "symbols": ["compute_ms", "build_K_matrix", "build_L_matrix"]}]}
{"id": "C120", "title": "The relabelling search decides collinearity on two joined blocks", "statement": "Two blocks of one row (of any length), of 2x2 or of 3x3 sites, joined by build_bond_matrix_block_embedding, have a bond matrix without repeated eigenvalues; therefore, with exact eigenvectors and a precise enough rounding, the search of is_bond_linear finds a relabelling and the bond, three-site and tile structure seen by the code on the joined lattice is that of the plane. When a number of at least three divides both the length of the joined lattice plus one and its height plus one, eigenvalues repeat in every diagonalisation.", "quantifier": "for all blocks of these sizes, every sorted orthonormal eigenbasis returned by eigh, every rounding of the stated precision, all set orders and all fillings; for all block sizes with such a divisor", "why_tests_cant": "the eigenvectors of LAPACK are one choice of signs; the claim holds for every choice, and the first family contains blocks of every length", "anchors": [{"file": "baseConstruction.py", "symbols": ["is_bond_linear"]}, {"file": "latticeFunctions.py", "symbols": ["build_bond_matrix_block_embedding"]}]}
{"id": "C121", "title": "One hole in a ferromagnetic lattice moves like a free particle", "statement": "With one hole and only up spins the basis vectors are the positions of the hole and the Hamiltonian only moves it; without hopping by two bonds along a line, its energies are exactly 2 t (cos(pi p/(W+1)) + cos(pi q/(H+1))) + 4 tNNN cos(pi p/(W+1)) cos(pi q/(H+1)) with 1 <= p <= W and 1 <= q <= H, and the converged energies of perform_initial_computations are among them up to the tolerance. Without hopping by two bonds and with spin couplings that are not antiferromagnetic, the lowest energy of one hole is -2|t| (cos(pi/(W+1)) + cos(pi/(H+1))) in every spin sector.", "quantifier": "for all rectangular lattices, all couplings and switches with the stated zeros, all set orders, all numbers of down spins (last sentence), all library functions with exact square root, eigenvectors and QR", "why_tests_cant": "a closed formula for lattices of every size; a test compares numbers on a few small lattices", "anchors": [{"file": "hamiltonianConstruction.py", "symbols": ["build_hamiltonian"]}, {"file": "interactions.py", "symbols": ["compute_hopping_integral", "compute_next_hopping_integral"]}, {"file": "initialComputations.py", "symbols": ["perform_initial_computations"]}]}
{"id": "C122", "title": "Sum of the energies and width of the spectrum", "statement": "If the exchange does not depend on holes (no hole, or the three exchange couplings equal), the sum of all energies of a sector with n sites, h holes, b down spins and a up spins on a W x H rectangle is dim/(n(n-1)) times -J (W(H-1)+H(W-1)) a b + (VNN (W(H-1)+H(W-1)) + VNNNper 2(W-1)(H-1)) h(h-1), each part only when its switch is on, whatever the other terms are; so the lowest energy is at most and the highest at least this mean. With the hopping alone the mean of the squared energies is 2 t^2 (W(H-1)+H(W-1)) h(n-h)/(n(n-1)), the lowest energy is at most minus its square root, and no energy exceeds 4 h |t| in size.", "quantifier": "for all rectangular lattices, all numbers of holes and down spins, all couplings and switches with the stated condition, all set orders, all orthonormal bases of eigenvectors", "why_tests_cant": "a closed formula for lattices of every size and every sector; a test sums the energies of a few small matrices", "anchors": [{"file": "hamiltonianConstruction.py", "symbols": ["build_hamiltonian"]}, {"file": "interactions.py", "symbols": ["compute_static_spin_interaction", "compute_hole_repulsion", "compute_hopping_integral"]}, {"file": "baseConstruction.py", "symbols": ["construct_basis"]}]}
{"id": "C123", "title": "Window of the energies around those of the hopping", "statement": "With the hopping by two bonds and the singlet displacement off, exchange couplings between 0 and delta and repulsions between 0 and epsilon (near pairs) and eta (diagonal pairs): the k-th energy is at least the k-th energy of the hopping alone minus delta per bond, and at most that energy plus epsilon per bond plus eta per diagonal of the W x H rectangle (W(H-1)+H(W-1) bonds, 2(W-1)(H-1) diagonals). So all energies lie between -4h|t| - delta bonds and 4h|t| + epsilon bonds + eta diagonals, and the lowest is at most -|t| sqrt(2 bonds h(n-h)/(n(n-1))) + epsilon bonds + eta diagonals.", "quantifier": "for all rectangular lattices, all numbers of holes and down spins, all couplings in the stated ranges, all set orders", "why_tests_cant": "the bound holds for real couplings and lattices of every size; a test sees single spectra", "anchors": [{"file": "hamiltonianConstruction.py", "symbols": ["build_hamiltonian"]}, {"file": "interactions.py", "symbols": ["compute_static_spin_interaction", "compute_hole_repulsion", "compute_hopping_integral"]}]}
{"id": "C124", "title": "A moving hole aligns the spins on a rectangle, not on a row", "statement": "On a rectangle with at least two rows and two columns and at least one hole, moves of holes to neighbouring sites connect all occupations with the same numbers of holes and spins. So with t not zero, spin flips off or not antiferromagnetic, no singlet displacement and next-nearest-neighbour hopping integrals that are not positive, the lowest energy of every sector is simple, no coefficient of its eigenvector is zero, the signs are equal for t < 0 and count the holes on black fields for t > 0; with static part and flips both on or both off its total spin is half of the number of electrons, and compute_spin_number yields it whenever sets enumerate the holes in increasing order. On a single row or column with the hopping and the repulsion alone the order of the spins is conserved instead: every energy of a sector with h holes and b down spins has (n-h choose b) times the multiplicity it has without down spins, and the lowest exactly (n-h choose b).", "quantifier": "all unrestricted rectangular lattices, all numbers of holes (at least one for the first part) and down spins, all couplings with the stated signs, all set orders", "why_tests_cant": "Connectivity of the occupations (a sliding puzzle) and uniqueness for lattices of every size; numerical degeneracies are hidden by rounding.", "anchors": [{"file": "hamiltonianConstruction.py", "symbols": ["build_hamiltonian"]}, {"file": "interactions.py", "symbols": ["compute_hopping_integral", "compute_spin_number"]}, {"file": "baseConstruction.py", "symbols": ["construct_basis"]}]}
{"id": "C125", "title": "Holes on a row are free: the whole spectrum in closed form", "statement": "For a row or column of n sites with h holes and b down spins and only the hopping t switched on, the multiplicity of every energy of the matrix built by build_hamiltonian is (n-h choose b) times the number of sets of h different wave numbers k in 1..n with sum of 2 t cos(pi k/(n+1)) equal to that energy; so the energies are exactly these sums, and the lowest is |t| (1 - sin((2h+1) pi/(2(n+1)))/sin(pi/(2(n+1)))).", "quantifier": "all lengths of the row, all numbers of holes and down spins, all hopping amplitudes, all energies, all orders of sets", "why_tests_cant": "A test compares finitely many numerical eigenvalues up to rounding; the claim gives every eigenvalue with its exact multiplicity for every length, filling and amplitude.", "anchors": [{"file": "hamiltonianConstruction.py", "symbols": ["build_hamiltonian"]}, {"file": "interactions.py", "symbols": ["compute_hopping_integral"]}, {"file": "baseConstruction.py", "symbols": ["construct_basis"]}]}
{"id": "C126", "title": "The denominators of the Davidson corrections are not zero", "statement": "The corrections of modified_davidson_algorithm divide by the differences between the diagonal elements of the matrix and the current approximate eigenvalues; none of these differences is zero, so that the corrections are finite.", "quantifier": "for all symmetric matrices, initial guesses, numbers of states, tolerances and numbers of iterations", "why_tests_cant": "With random guesses the approximate eigenvalues miss the diagonal elements almost surely; the division by zero needs a guess made of determinants, such as the ones main.py prepares, and matrices of all sizes.", "anchors": [{"file": "davidson.py", "symbols": ["modified_davidson_algorithm"]}, {"file": "main.py", "symbols": ["initial_guess", "initial_guesses_det"]}]}
{"id": "C127", "title": "The moving electrons are fermions", "statement": "The vectors of the basis are called Slater determinants, so the matrix of build_hamiltonian should be, up to the signs of the basis vectors, the matrix of the t-J Hamiltonian written with fermionic creation and annihilation operators (any numbering of the modes). With at most one hole, and on a single row or column, it is. On a rectangle with at least two rows and columns, two holes and two electrons of the same spin it is not: add_hopping_integral puts +t on every move, so exchanging two electrons gives no sign. No rescaling of the basis vectors repairs this, without second-neighbour hopping and singlet displacement the energies are different whatever the remaining couplings, and without antiferromagnetic spin flips the lowest energy is strictly below all energies of the fermions.", "quantifier": "all rectangle sizes, particle numbers, couplings, numberings of the modes, pairs of determinants", "why_tests_cant": "Existence or absence of a choice of signs for a whole basis, and a comparison of spectra, for all lattices; a test compares one matrix with itself.", "anchors": [{"file": "interactions.py", "symbols": ["add_hopping_integral", "compute_hopping_integral", "add_next_hopping_integral"]}, {"file": "hamiltonianConstruction.py", "symbols": ["build_hamiltonian"]}]}
{"id": "C128", "title": "save_phase_space leaves one picture per sector and the data as they were", "statement": "Called with a state, numbers of values of t and V, on a lattice with at least one hole and one electron, save_phase_space ends, saves one picture for every number of up spins, changes no other file and leaves the configuration and the couplings of its argument as they were.", "quantifier": "all rectangles and holes with an electron, couplings, options, states, grid sizes, trees of files, versions of matplotlib", "why_tests_cant": "It is about every file of the tree and every attribute of the argument after loops over all sectors and grid points; a test with equal grid sizes in an existing tree does not see the exceptions.", "anchors": [{"file": "postProcessing.py", "symbols": ["save_phase_space"]}, {"file": "baseConstruction.py", "symbols": ["Configuration"]}]}
{"id": "C129", "title": "The picture of an embedding compares it with the isolated lattice", "statement": "After save_data of a lattice and save_data_embedding_blocks of its embedding, generate_plots with a flag of the embedding ends and saves, for the sector, a .png and a .pdf picture in which the bars at one place are the squared amplitudes of one determinant in the isolated and in the embedded ground state, for the 30 largest ones; pictures of different kinds of embedding do not overwrite each other.", "quantifier": "all rectangles, numbers of holes and down spins, ground states, options of the embedding, trees of files, earlier pictures", "why_tests_cant": "The picture has to be looked at; bars that are sorted apart from each other look like a comparison, and a test with one sector and one kind of embedding sees neither the overwriting nor the exception.", "anchors": [{"file": "postProcessing.py", "symbols": ["plot_embedding_effect_on_determinants", "generate_plots_configuration", "generate_plots"]}, {"file": "embedding.py", "symbols": ["save_data_embedding_blocks"]}, {"file": "initialComputations.py", "symbols": ["save_data", "load_data"]}]}
{"id": "C130", "title": "embedding_blocks starts from a saved file and leaves its results in another", "statement": "embedding_blocks loads the results of the isolated block (or, with neel_embedding, those of embedding_neel), ends without an exception, and every state after the first is normalised with the energy it has in the field of the state before, which is not above the energy of the loaded state in this field. If two successive states are close it saves, in the file named after the switches and options, the energy and the state with the Hamiltonian in the field of the state before, and returns them; otherwise it returns None and changes no file. The three computations perform_initial_computations, embedding_neel and embedding_blocks can be run one after the other.", "quantifier": "all rectangular lattices, fillings, couplings, options, tolerances, numbers of iterations, directory contents, and all libraries with exact QR and eigenvectors", "why_tests_cant": "the claim couples the file system, the self-consistent loop of unbounded length and the diagonalisation for every lattice, filling and option; no test of the project calls embedding_blocks", "anchors": [{"file": "embedding.py", "symbols": ["embedding_blocks", "save_data_embedding_blocks", "embedding_neel"]}, {"file": "initialComputations.py", "symbols": ["load_data", "save_data"]}]}
{"id": "C131", "title": "How far the neighbouring blocks move the energy", "statement": "If J, VNN and VNNNper are not negative, embedding_blocks without dynamical effects changes only the diagonal of the Hamiltonian, by at least -J/2 for every site facing a neighbour (one side, or four) and at most nholes*(VNN + 2 VNNNper) for one neighbour, nholes*(2 VNN + 2 VNNNper) for four. Hence in every iteration the energy is within these bounds of the energy of the same state of the isolated block, and the energy that is saved is at most the saved energy of the isolated block plus the upper bound and at least any lower bound on the energies of the isolated block minus the lower one; without holes the embedding never raises the energy.", "quantifier": "all rectangular lattices (squares with at least two sites per side for four neighbours), all fillings, all couplings with J, VNN, VNNNper not negative, all states of the neighbours, reversed or not, all numbers of iterations and tolerances, every library with exact QR decompositions and eigenvectors", "why_tests_cant": "a bound over all states of the neighbours and all sizes; a run on one lattice shows one energy", "anchors": [{"file": "embedding.py", "symbols": ["embedding_blocks"]}, {"file": "davidson.py", "symbols": ["modified_davidson_algorithm"]}]}
{"id": "C132", "title": "The total spin can be computed with the configuration that save_phase_space leaves behind", "statement": "After a run of save_phase_space that ends, compute_S2 with the configuration of the data gives the total spin of its determinants, as it does on a new configuration.", "quantifier": "all rectangular lattices with holes and electrons, all numbers of down spins at the start, all couplings, grids, vectors and set orders", "why_tests_cant": "the result depends on an attribute that an earlier call left behind, for every lattice, filling and vector; no test calls the two functions one after the other", "anchors": [{"file": "interactions.py", "symbols": ["compute_S2", "compute_S_plus_S_minus", "compute_S2_exp_val"]}, {"file": "postProcessing.py", "symbols": ["save_phase_space"]}, {"file": "baseConstruction.py", "symbols": ["Configuration", "get_hash_basis"]}]}
{"id": "C133", "title": "Converged Davidson values belong to different eigenvalues", "statement": "When modified_davidson_algorithm converges with n values, the matrix has n different eigenvalues (counted with multiplicity) such that the k-th returned value is within sqrt(n)*tol of the k-th of them; so at least as many eigenvalues lie within sqrt(n)*tol of an interval as returned values lie in it. For perform_initial_computations the n eigenvalues are the energies of n orthonormal eigenstates of the t-J Hamiltonian in the sector of the configuration. With any QR, any small diagonalisation, and norms computed at least c times their exact value, each value is still within tol/(c*norm(u)) of an eigenvalue, u being its returned vector.", "quantifier": "all symmetric matrices, all numbers of values, guesses, numbers of steps, tolerances and dimensions, all degeneracies of the spectrum, every library with exact QR, eigenvectors and norms (the last clause: every library)", "why_tests_cant": "the claim counts eigenvalues with multiplicity for every symmetric matrix, including degenerate and nearly degenerate ones; a test sees the values for one matrix and cannot tell a repeated value from a degenerate one", "anchors": [{"file": "davidson.py", "symbols": ["modified_davidson_algorithm"]}, {"file": "initialComputations.py", "symbols": ["perform_initial_computations"]}]}
{"id": "C134", "title": "Pattern and number of the stored elements of the Hamiltonian", "statement": "The CSR arrays that build_hamiltonian returns on a rectangle store an element for two determinants exactly when one of the selected terms connects their occupations, whatever the values of the couplings (also 0). So other couplings with the same selected terms give the same index arrays. For W x H sites, h holes and b down spins the number of stored elements is dim*([bz or bV] + (h(n-h)(2B[bt] + N[btN]) + 2B b(n-h-b)[bij])/(n(n-1)) + 2P h b(n-h-b)[bSD]/(n(n-1)(n-2))) with the numbers B of bonds, N of ordered pairs two bonds apart and P of paths of two bonds (singlet displacement together with the hopping by two bonds).", "quantifier": "all rectangles of blocks, all numbers of holes and spins, all couplings, all selections of terms (in the count: bSD implies btN), every order in which the sorting leaves equal columns", "why_tests_cant": "the count is a closed formula for every lattice and filling, and the pattern does not depend on the couplings; a test counts the elements of one matrix and cannot reach the sizes where the number of elements decides whether a matrix fits in memory", "anchors": [{"file": "hamiltonianConstruction.py", "symbols": ["build_hamiltonian", "add_ham_coo"]}, {"file": "interactions.py", "symbols": ["add_hopping_integral", "add_next_hopping_integral", "add_static_spin_interaction", "add_spin_flip", "add_singlet_displacement", "add_hole_repulsion"]}]}
{"id": "C135", "title": "Joining two blocks does not raise the lowest energy", "statement": "If two rectangular lattices are put side by side (same height) or on top of each other (same width), the lowest eigenvalue of the Hamiltonian built for the whole lattice, in the sector with the holes and the down spins of both, is at most the sum of any two eigenvalues of the Hamiltonians built for the parts, plus the repulsion across the cut: L*max(V_NN,0) + 2*(L-1)*max(V_NNN,0) for a cut of L sites, and nothing if the repulsion is off or one part has no hole. The exchange couplings satisfy 0 <= J <= J_per <= J_par, and the flips are used together with the static exchange. By induction a row of k copies of a block has an energy at most k times that of a block plus (k-1) times the repulsion of a cut. The condition on the exchange cannot be dropped: with an exchange that vanishes next to a hole a row of three sites has a higher energy than its parts.", "quantifier": "for all sizes of the two rectangles, all numbers of holes and down spins that fit, all couplings with 0 <= J <= J_per <= J_par, all selections of terms with flips only together with the static exchange, all eigenvectors of the parts, all exact orthonormal diagonalisations of the whole, and all numbers of copies", "why_tests_cant": "The basis grows exponentially with the lattice, so a test can compare only a few small lattices, and none checks that the numbering of the sites of the whole lattice, the bonds across the cut and the sectors fit for all sizes and couplings.", "anchors": [{"file": "latticeFunctions.py", "symbols": ["build_rectangular_bond_matrix", "build_T_matrix", "build_U_matrix"]}, {"file": "hamiltonianConstruction.py", "symbols": ["build_hamiltonian"]}]}
{"id": "C136", "title": "Dominant determinants of a non-degenerate state come in pairs of reversed spins, and the report shows one of each twice", "statement": "With as many up as down spins (at least one of each), in every eigenvector of the Hamiltonian whose eigenvalue is not degenerate, a determinant and the determinant with all spins reversed (reverse_spins) have coefficients of the same modulus. As get_dominant_determinants and the bar plot of the post-processing look the determinants up by the modulus of their coefficient, the entries 2m+1 and 2m+2 of their lists are the same determinant with the same coefficient, for every m, and a list of at least two entries is never the list of the determinants with the largest coefficients. For the antiferromagnet without holes the lowest state is always of this kind.", "quantifier": "for all rectangular lattices, all numbers of holes, all couplings and selections of terms, all non-degenerate eigenvectors (exact arithmetic), all numbers of determinants asked for; for the antiferromagnet all lattices with an even number of sites and all lowest states", "why_tests_cant": "The repository tests call get_dominant_determinants with made-up vectors of different moduli; equal moduli follow from the symmetry of every Hamiltonian of the class, which only a proof over all of them shows.", "anchors": [{"file": "baseConstruction.py", "symbols": ["get_dominant_determinants", "reverse_spins"]}, {"file": "postProcessing.py", "symbols": ["plot_embedding_effect_on_determinants"]}, {"file": "hamiltonianConstruction.py", "symbols": ["build_hamiltonian"]}]}
{"id": "C137", "title": "Unpolarised blocks exert no magnetic field", "statement": "With as many up as down spins, every site of a state whose energy is not degenerate is up and down with the same probability, so the reversal of the spins of the neighbours changes nothing. Without holes the field of such neighbours in embedding_blocks is a constant, -J/4 for each facing site on every diagonal entry. Hence for an antiferromagnetic block without holes, started from a state of lowest energy, embedding_blocks without dynamical effects only returns the same state up to its sign, and the energy of the isolated block lowered by J/4 for each facing site, with any of its options; if it does not converge, every iteration changed the sign of the state.", "quantifier": "all rectangular lattices (squares for four neighbours) with as many up as down spins; densities: all couplings, switches and numbers of holes; run: no holes, all J > 0, all other couplings, every start file with a state of lowest energy, all tolerances and numbers of iterations, every library with exact QR decompositions and eigenvectors", "why_tests_cant": "a test of the run on one small lattice shows one energy; that the embedding does nothing for every size needs the uniqueness of the ground state and its reversal symmetry", "anchors": [{"file": "embedding.py", "symbols": ["embedding_blocks"]}, {"file": "baseConstruction.py", "symbols": ["get_spins_probabilitites_lattice"]}, {"file": "davidson.py", "symbols": ["modified_davidson_algorithm"]}]}
{"id": "C138", "title": "Four-sided block embedding works on square blocks only", "statement": "embedding_blocks with neighbours on the four sides (neighbor_embedding false) uses rotated copies of the determinants of the block. On a rectangular block that is not square, with at least one hole or down spin, the index of some rotated determinant lies outside the basis, so the run always ends with an exception, whatever the couplings, the options, the diagonalisation and the number of iterations, and no file is changed; without dynamical effects it is the ValueError of the sparse matrix in the first iteration. A dressed Hamiltonian is obtained exactly if the block is square or has neither holes nor down spins.", "quantifier": "all rectangular blocks, fillings, interactions, options, states of the neighbours, solvers, tolerances, iteration counts and file systems", "why_tests_cant": "Whether some rotated determinant leaves the basis depends on the number of columns, rows, holes and down spins; tests look at a few shapes, the claim is about all of them.", "anchors": [{"file": "embedding.py", "symbols": ["embedding_blocks"]}, {"file": "baseConstruction.py", "symbols": ["rotate_determinant", "get_index_in_basis", "compute_hash_table", "get_distance_hash", "project_hash"]}, {"file": "hamiltonianConstruction.py", "symbols": ["add_ham_coo"]}]}
{"id": "C139", "title": "Dynamical embedding next to reversed blocks works only with equal spins or without holes", "statement": "With dynamical effects and a spin-reversed neighbour, embedding_blocks obtains a dressed Hamiltonian exactly if the block has as many up as down spins or no holes. With a hole and different numbers of up and down spins the run always ends with an exception, whatever the couplings, the other options, the diagonalisation, the starting vector and the number of iterations, and no file is changed. Without holes the dynamical effects change nothing, whatever the neighbour.", "quantifier": "all rectangular blocks, fillings, interactions, thresholds, states of the neighbours, solvers, tolerances, iteration counts, set iteration orders and file systems", "why_tests_cant": "Whether an exchange without an entry in the register of perturbators is reached depends on the particle numbers and on the sites facing the neighbour, for blocks of every size; no test of the project runs the dynamical embedding with reversed neighbours.", "anchors": [{"file": "embedding.py", "symbols": ["embedding_blocks"]}, {"file": "baseConstruction.py", "symbols": ["reverse_spins_basis", "get_spin_site", "get_indexes_of", "extend_determinant"]}]}
{"id": "C140", "title": "The converged Davidson energies are the lowest ones", "statement": "When modified_davidson_algorithm reports convergence, the returned values are the lowest eigenvalues of the matrix. False in general: started with any orthonormal eigenvectors the algorithm stops in its first iteration with their eigenvalues, and for a static Hamiltonian every determinant is such a start. True: values taken from a search space that contains the lowest eigenvectors (in particular of full dimension) are exactly the lowest eigenvalues; every converged value lam inside a gap (a, b) of the spectrum satisfies (lam - a)(b - lam) <= tol^2; a first value below the middle of the first gap is right up to 2 tol^2 / gap.", "quantifier": "all real symmetric matrices of every dimension (ordered field), all numbers of values, guesses, tolerances, iteration budgets and limits of the search space, in exact arithmetic", "why_tests_cant": "the lowest eigenvalues of the interesting matrices are not known otherwise, and random start vectors hide the failure; the error bound quantifies over all spectra", "anchors": [{"file": "davidson.py", "symbols": ["modified_davidson_algorithm", "get_lowests_eig"]}, {"file": "main.py", "symbols": ["diagonalization"]}]}
{"id": "C141", "title": "Davidson keeps the symmetry of its initial guess", "statement": "If every vector of the initial guess of modified_davidson_algorithm is even (or odd) under a symmetry of the lattice or under the reversal of all spins, then all search spaces and all returned states are even (or odd) likewise, so that a lower energy of the other parity is not found.", "quantifier": "all symmetric matrices, all subspaces closed under the matrix and its diagonal, all guesses, numbers of states, iterations and exact libraries; for the lattices: all rectangles, fillings, couplings and symmetries of the rectangle", "why_tests_cant": "The property concerns every iteration of every run; a test sees one run on one lattice, where rounding or an accidental degeneracy hides the effect.", "anchors": [{"file": "davidson.py", "symbols": ["modified_davidson_algorithm", "perform_modified_gram_schmidt"]}, {"file": "initialComputations.py", "symbols": ["perform_initial_computations"]}]}
{"id": "C142", "title": "The deflating Davidson goes on with every Ritz vector that has not converged and finds each state once", "statement": "After an iteration of modified_davidson_algorithm_opt that accepts some Ritz vectors and does not end the search, every Ritz vector whose residue exceeds the tolerance is still in the span of the next search space, and the accepted ones are not found again; in particular the function never returns more values than the matrix has dimensions.", "quantifier": "all symmetric matrices, all numbers of values, block sizes, tolerances, iteration limits, all orthonormal search spaces, all exact linear algebra libraries", "why_tests_cant": "The tests run one random sparse matrix with 15 values; which residues fall below the tolerance in the same iteration depends on the matrix and on the random block, and a lost Ritz vector only shows as slow convergence or as a missing state.", "anchors": [{"file": "davidson.py", "symbols": ["modified_davidson_algorithm_opt", "get_meaningful_corrections", "get_lowests_eig"]}]}
{"id": "C143", "title": "The pictures of the spectrum against t/J are in the files of their sector", "statement": "A call of plot_spectrum_dependance leaves four pictures in tJ-H{n}/ParametrizedSpectrum, named after the numbers of sites, up and down spins: .png and .pdf of the spectrum without the extension and, with -extended, with it. The directory is made if it is missing, colours and line styles follow the legend, and the pictures of other sectors stay as they are.", "quantifier": "for all data of a sweep, all numbers of ratios, all eigensolvers, all trees of files", "why_tests_cant": "The outcome depends on the tree of files, on the multiplicities and degeneracies at the first ratio, and on the digits of the numbers of spins; a test fixes one tree and one sector.", "anchors": [{"file": "postProcessing.py", "symbols": ["plot_spectrum_dependance"]}]}
{"id": "C144", "title": "The densities of a level do not depend on the run", "statement": "The hole, up and down densities reported for the states of an energy are determined by the Hamiltonian: two runs that find the states of the same energy report the same densities, and these have the symmetries of the lattice.", "quantifier": "for all rectangular lattices, fillings, couplings, switches, energies, multiplicities, orthonormal families of eigenvectors, sites and species", "why_tests_cant": "Degenerate levels have infinitely many orthonormal families of eigenvectors; a test sees the family that one eigensolver returns.", "anchors": [{"file": "hamiltonianConstruction.py", "symbols": ["build_hamiltonian"]}, {"file": "baseConstruction.py", "symbols": ["get_probability_spin_lattice"]}]}
{"id": "C145", "title": "The hole picture of an energy is the same in all spin sectors", "statement": "With the static and the flip part of the spin coupling both on or both off: to every state of given energy and total spin of a sector there is, in every less polarised sector with the same number of holes, a state of the same energy and total spin for which the same hole densities are reported. If the energy is not degenerate in the less polarised sector, the hole densities reported in the two sectors are the same whichever eigenvectors the solver returns. With ferromagnetic couplings the lowest states of all these sectors have the same energy and the same reported hole densities.", "quantifier": "for all rectangular lattices, numbers of holes, pairs of numbers of down spins up to equal numbers of both spins, couplings, switches, energies and eigenvectors", "why_tests_cant": "It relates two runs with different sectors, matrices of different sizes and all eigenvectors of an energy; a test compares floating point results of single pairs of runs.", "anchors": [{"file": "hamiltonianConstruction.py", "symbols": ["build_hamiltonian"]}, {"file": "baseConstruction.py", "symbols": ["construct_basis", "get_probability_spin_lattice"]}]}
{"id": "C146", "title": "The spins of an energy follow from its multiplicities in the sectors", "statement": "With the static and the flip part of the spin coupling both on or both off, and at least as many up as down spins: the number of independent states of an energy with the least total spin of a sector is the multiplicity of the energy in the sector minus that in the sector with one down spin less; every other total spin occurs equally often in the two sectors; the multiplicity of the energy is the sum of these numbers over the spins (N - 2 j) / 2 for N electrons and j up to the number of down spins; and for each such state compute_spin_number reports this spin as long as the set order lists the holes increasingly.", "quantifier": "for all rectangular lattices, numbers of holes and down spins, couplings, switches and energies", "why_tests_cant": "It counts dimensions of common eigenspaces for all couplings and energies; tests see rounded eigenvalues of single matrices and cannot decide multiplicities.", "anchors": [{"file": "hamiltonianConstruction.py", "symbols": ["build_hamiltonian"]}, {"file": "baseConstruction.py", "symbols": ["construct_basis"]}, {"file": "interactions.py", "symbols": ["compute_spin_number"]}]}
{"id": "C147", "title": "The curves of the spectrum against t/J rise", "statement": "On an unrestricted rectangular lattice, when Jhpar/J and Jhper/J are not negative, and for the second figure when the singlet displacement couplings vanish, no energy of the Hamiltonian of plot_spectrum_dependance falls when the ratio t/J rises: energy number k at one ratio is at most energy number k at every larger ratio. The lowest energy is a concave function of J/t for couplings of any sign. If the holes do not change the exchange, the sum of the energies of the sector grows by dim*|t|(1/r1 - 1/r2)*bonds*a*b/(n(n-1)) from ratio r1 to r2 in both figures, so some energy rises strictly as soon as there are a bond, hopping and both spins. In a sweep, with exact linear algebra, the point of curve k drawn at one ratio is never below the exact energy number k of any smaller ratio by more than the rounding to six digits, converged or not, as soon as the search space was orthonormalised (two states or a second Davidson step).", "quantifier": "For all rectangular lattices, hole numbers, spin sectors, couplings, pairs of positive ratios, both figures, all numbers of ratios, all curves and points.", "why_tests_cant": "It is a statement about all energies at all pairs of ratios for all couplings of one sign; a run draws one sweep of one system, and slightly wrong rescaled couplings still give curves that look smooth.", "anchors": [{"file": "postProcessing.py", "symbols": ["plot_spectrum_dependance"]}, {"file": "hamiltonianConstruction.py", "symbols": ["build_hamiltonian"]}]}
{"id": "C148", "title": "The field of the Neel embedding in closed form", "statement": "Around a rectangular block of W by H sites, both at least 2, embedding_neel changes only diagonal entries of the Hamiltonian. In the first iteration it lowers the entry of a determinant by J/2 for each bond between a border site and an electron whose spin is that of the antiferromagnetic pattern with an up spin in the first corner; a site has one such bond for each side of the block on which it lies. In every later iteration an electron at a site gains J/2 for each such bond, times the probability that its own site carried the same spin in the ground state of the iteration before; a hole pays VNN for each such bond times the probability that its own site was empty, and VNNNper for each border site across a tile, times the probability that the block site beside that border site was empty; such border sites stand before the sides of the block common to the hole's site and a neighbour of it, one for each common side. For J > 0 the first field lowers an entry by at most J (W + H), never raises it, and reaches the bound exactly for the determinants that follow the pattern on all sites at the edge of the block.", "quantifier": "all blocks with both sides of at least two sites, all hole and spin numbers, all couplings, all Hamiltonians, solvers returning a normalised vector, tolerances and iteration counts", "why_tests_cant": "A test sees the dressed matrix of one block in a few iterations; the closed form speaks about every determinant of every block, in each iteration of every run.", "anchors": [{"file": "embedding.py", "symbols": ["embedding_neel"]}, {"file": "baseConstruction.py", "symbols": ["get_spins_probabilitites_lattice"]}]}
{"id": "C149", "title": "The iterations of the Neel embedding lower a mean field energy", "statement": "Let the mean field energy of a normalised state be its energy in the isolated block plus half of its interaction with its own image on the border: -J/2 for each border bond times p_up^2 + p_down^2 at the site, VNN times p_hole^2, and VNNNper for hole probabilities across a tile. From one iteration of embedding_neel to the next this energy changes exactly by the difference of the mean values of the new matrix in the new and the old ground state, plus half the same interaction of the change of the occupations with itself. Hence, for J >= 0 and no holes, or VNN <= 0 and VNNNper = 0, an iteration that finds a state no higher in its matrix than the state before lowers the mean field energy at least by J/4 times the squared changes of the spin probabilities at the edge. With a solver returning the lowest state the energy never rises during a run; without holes, or without repulsion between holes, the squared changes of all iterations add up to at most a number given by the first state and the lowest energy of the isolated block, however many iterations are allowed. In the same case, with J > 0, the mean value of the matrix of every iteration in every normalised state is at most that of the isolated block, and at least that less J (W + H). With a repulsion VNN > 0 between holes a run need not settle: on a 2x2 block with one hole, J = 2 and VNN = 3, the hole moves back and forth between two sites for any number of iterations, although each state is a ground state of its matrix.", "quantifier": "all blocks with both sides of at least two sites, all hole and spin numbers, all Hamiltonians, tolerances and iteration counts; for the last part all solvers returning a lowest normalised state", "why_tests_cant": "A run on one block may settle by chance; the decreasing energy and the bound on the sum of all changes concern every run of every length.", "anchors": [{"file": "embedding.py", "symbols": ["embedding_neel"]}, {"file": "baseConstruction.py", "symbols": ["get_spins_probabilitites_lattice"]}]}
{"id": "C150", "title": "The energy between neighbouring blocks is that of independent sites", "statement": "If is_bond_linear finds the geometry of the two joined blocks (C21), in every iteration of embedding_blocks without dynamical effects the field on a determinant is a sum over the sides of the block that have a neighbour. On each side the sites of the block face, one by one, the first sites of the rows of the neighbour; each facing pair adds -J/2 times the probability that the site of the neighbour has the opposite spin, or VNN times the probability that it is empty if the site of the block is, and VNNNper is added for two holes in adjacent rows. Hence the mean value of the matrix in any state is its energy in the isolated block plus, for each such pair, the energy with the product of the probabilities of the two sites: the correlations between blocks are dropped. Nothing else of the state before matters: two iterations, of the same or of different runs, whose states before agree in the probabilities of the first sites of the rows diagonalise the same matrix.", "quantifier": "all rectangular blocks (square ones with four neighbours), particle numbers, couplings, Hamiltonians, diagonalisation results, tolerances and numbers of iterations; every normalised state before and every trial state", "why_tests_cant": "A test compares the dressed matrices of a few blocks and iterations; that the field has this form for every size, side and state, and sees only one column of the neighbour, is a statement about all of them.", "anchors": [{"file": "embedding.py", "symbols": ["embedding_blocks"]}]}
{"id": "C151", "title": "With reversed spins the iterations of the block embedding lower a mean field energy", "statement": "Let the mean field energy of a state next to its neighbours be its energy in the isolated block plus half of its interaction with copies of itself on the sides that have a neighbour. If the sites that face a neighbour have the probabilities of the sites they face (always for blocks of one column with one neighbour; for square blocks, if the state keeps the symmetries of the square), then from one iteration of embedding_blocks without dynamical effects to the next this energy changes exactly by the difference of the mean values of the new matrix in the new and the old state, plus half the interaction of the change of the occupations with its copies. Hence with reverse_spins, and no holes or VNN <= 0 and VNNNper = 0, an iteration that finds a state no higher in its matrix than the state before lowers the mean field energy at least by J/4 for each neighbour times the squared changes of the spin probabilities in the first column; over a whole run these changes add up to no more than the fall of the energy, and for J > 0 and no holes it falls until a matrix is repeated. Without reverse_spins and without holes the last term has the opposite sign: the energy falls by the gain in the matrix less this amount, so the iterations need not settle.", "quantifier": "all rectangular blocks (square ones with four neighbours), particle numbers, couplings, Hamiltonians, diagonalisation results, tolerances and numbers of iterations; all successive states with even sides", "why_tests_cant": "A test sees the energies of a few runs; the identity and the sign hold for every block, state and iteration.", "anchors": [{"file": "embedding.py", "symbols": ["embedding_blocks"]}]}
{"id": "C152", "title": "The embedding of a square block in four neighbours keeps the symmetries of the square", "statement": "Let the block be square and surrounded by blocks on its four sides, without dynamical effects, and let is_bond_linear find the geometry of the two joined blocks (C21). If the site probabilities of the state before do not change under the mirror images in a side and in a diagonal of the square, then the matrix diagonalised by embedding_blocks does not change when both determinants are moved by one of them, although only the right side of the block is looked at and the rest is done with rotated determinants. If the ground state of the iteration is the only state of its energy, its probabilities keep both mirror images as well. Hence a run that starts from such a state keeps them in every iteration in which the ground state is not degenerate, and the sites facing a neighbour have the probabilities of the sites they face, as C151 asks; with reversed spins, and no holes or VNN <= 0 and VNNNper = 0, the mean field energy of C151 then falls over the run at least by J times the squared changes in the first column, if each state is the lowest of its matrix.", "quantifier": "all square blocks, hole and spin numbers, couplings, switches, options of the reversal, diagonalisation results, tolerances and numbers of iterations", "why_tests_cant": "A test sees a few blocks and iterations; invariance is a statement about all pairs of determinants, block sizes and states.", "anchors": [{"file": "embedding.py", "symbols": ["embedding_blocks"]}, {"file": "baseConstruction.py", "symbols": ["rotate_determinant"]}]}
