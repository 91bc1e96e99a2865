# Formal model of tJHam: design

The code under study is the Python program in `/repo` (exact diagonalisation of an
extended t-J Hamiltonian on small lattices). The model is in Lean 4, in
`/verif/lean/Verif`. Properties are listed in `properties.jsonl`, their status and the
theorems in `MANIFEST.json`, experiments with wrong programs in `seeded/LOG.jsonl`.

## 1. Layout

| directory | content |
|---|---|
| `Verif/Model/*.lean` | the code, function by function, executable; each definition cites file and lines |
| `Verif/Spec/*.lean`  | small independent specifications (occupations of sites, geometry, textbook matrix elements) |
| `Verif/Lemmas/*.lean` | helper lemmas |
| `Verif/Props/*.lean` | the property theorems, named `C01_...`, with `example`s beside them |

Model files: `Py` (exceptions, numpy and set primitives), `Lattice` (latticeFunctions.py),
`Base` (baseConstruction.py), `Interactions` (interactions.py, hamiltonianConstruction.py),
`Spin` (spin operators of interactions.py), `Observables` (probabilities and displays),
`Davidson` (davidson.py), `IO` and `Initial` (initialComputations.py), `Embedding` (embedding.py),
`PostProcessing` (postProcessing.py), `Clusters` (the search inside `is_bond_linear`),
`CPythonSet` (iteration order of sets), `Phase` and `PhaseAxes` (phase diagrams), `Dependance` and `DependancePictures` (spectra against t/J),
`Csr` (the compressed rows), `Files` (results directory, saving and loading), `Sweep` (the sweep over sectors with its files),
`Plots` and `GeneratePlots` (pictures and their directories), `MainRun` (main.py with its files),
`SmallLattice` (the functions of latticeFunctions.py that the rest of the code does not call).

## 2. Modelling decisions

* **Exceptions** are values: `Py α = Except PyErr α`. `list.index`, `list.remove`,
  explicit `raise`, out-of-range indexing, missing attributes and shape mismatches are
  modelled where a property can reach them.
* **Loops** `while` take fuel and return `nonTermination` when it runs out; theorems show
  that the fuel given by the model is enough, or are about the non-termination.
* **Sets.** The order of `list(set(...))`, `list(a & b)`, ... is not fixed by the
  language. The model takes a parameter `S : SetSem` containing one arbitrary
  enumeration function per set expression; all that is known is that the result has no
  repetition and the right members. Theorems hold for every `S`; where the code depends on
  the order (C39) the hypothesis `HolesInOrder` is explicit and a failing order is exhibited.
  `SetSem.cpython` (`Model/CPythonSet`, `Model/CPythonOrder`) is the instance for the hash tables of CPython, used only in C81.
  That these tables keep every element once is proved (C81_tables); that they are those of the interpreter is not. As a test of the
  transcription, not a proof, it was compared once with Python 3.11.10 on 1500 random pairs of sets: same order for `set`, `&`
  and `difference` in all of them.
* **Relabelling search.** `Env` is a `SetSem` with an oracle for the clusters branch of
  `is_bond_linear`. `clusterEnv S rnd eigh` is the instance given by the modelled search
  (`Model/Clusters`); `eigh` is any function satisfying `EighOf` (exact eigen-decomposition
  in increasing order), `rnd` any function satisfying `Rounds` (rounding of known precision).
* **Numbers.** Python ints are `Nat`/`Int`. Floats are elements of an arbitrary field
  (ordered or real where needed): rounding errors, overflow, NaN are not modelled.
* **numpy arrays** are shape + entry function or lists; `concatenate` checks shapes.
  `scipy.special.comb(exact=True)` is the binomial coefficient, zero out of range.
* **scipy.sparse**: a COO list denotes the matrix whose entry is the sum of the data with
  these coordinates; an out-of-range coordinate is an exception.
* **LAPACK** (`eigh`, `qr`, `norm`) is a parameter `LinAlg`; each theorem states the
  contract it needs (none for `C50_converged`); `realLib` in `Lemmas/ExactLib` is an instance of
  the contract over the reals, so the hypotheses are satisfiable. Random guesses are inputs.
* **Solver.** `embedding_*` take the diagonalisation as a parameter; `Solver.Good` is the
  contract.
* **JSON** files are values (`PyVal`); the text of the file and the decimal printing of
  floats are not modelled.

## 3. Trusted base

Lean 4.33.0 kernel; axioms `propext`, `Classical.choice`, `Quot.sound` only; no own axioms,
no `sorry`, no `native_decide`, no `bv_decide`. Axioms used (`#print axioms`):

* `propext`: `C46_displayable_basis_fails`.
* no axiom: `C03_order_strict`, `C17_list_restriction_fails`.
* `propext`, `Quot.sound`: `C151_square`, `C17_bond_list`, `C17_bond_list_restricted`, `C18_neighbors`, `C18_outside`, `C18_second_neighbors`, `C35_additive`, `C35_all_off`, `C35_combination`, `C35_restriction_unused`, `C42_wrong_spin`, `C43_errors`, `C54_loaded_shape`, `C54_missing_part`, `C60_only_symmetric`, `C63_no_iteration`, `C63_one_diagonalisation`, `C72_sweep_iff`, `C72_sweep_loses_lattice_type`, `C72_sweep_periodic_partial`, `C79_blocks_partial`, `C79_neel_isolated`, `C85_values_partial`, `C96_no_state`.
* `propext`, `Classical.choice`, `Quot.sound`: the other 470 property theorems.

Trusted by reading: that the definitions in `Verif/Model` transcribe the cited Python lines,
that the definitions in `Verif/Spec` say what the property says, and the decisions of section 2.

### Modelled

* `latticeFunctions.py`: all functions except those below.
* `baseConstruction.py`: all functions except those below.
* `interactions.py`, `hamiltonianConstruction.py`: all functions except printing.
* `davidson.py`: `get_lowests_eig`, `get_meaningful_corrections`, `davidson_algorithm`,
  both `modified_davidson_algorithm*`, `gramSchmidt`, the classes.
* `initialComputations.py`: all functions.
* `embedding.py`: `embedding_neel`, `embedding_blocks`, the two save functions with their directories.
* `postProcessing.py`: the computations (levels, amplitude curves, bars, exchanges of curves,
  file names, subplot cells, phase diagrams, which pictures are saved), not the drawing.
* `main.py`: the calls it makes, with the files they read and write (C117, C118).

### Not modelled

* `davidson.py`: `perform_modified_gram_schmidt` (295-305, the `qr` parameter).
* `postProcessing.py`: the drawing calls of matplotlib.
* All drawing (matplotlib), printing, progress bars, timing, file-system errors other than a missing
  directory or file.
* The commented-out code at the ends of files. The test files are not modelled either, but their expected values are compared
  with the model in `Verif/Tests/Repo.lean` (examples on literals, evidence that the definitions are faithful, no proofs of properties).

## 4. Properties

Most theorems have their example beside them. The others have it in `Verif/Tests/Cases.lean`, which applies each of them to a
concrete non-trivial case.

| id | status | modelled | how proved |
|---|---|---|---|
| C01 Basis enumerates every occupation exactly once | proved | `construct_basis`, `itertools.combinations` | combinations enumerate sublists (induction); a determinant is read as an occupation (`Spec/Occupation`), the bijection basis/occupations is proved sector by sector |
| C02 The announced dimension is the length of the basis | proved | `compute_dimension`, `construct_basis` | length of combinations = binomial coefficient, induction |
| C03 Basis order is lexicographic and every determinant is canonical | proved | `construct_basis` | pairwise order on the list of combinations, induction |
| C04 Index of a basis element is its position | proved | `get_index_in_basis`, `compute_hash_table`, `get_distance_hash`, `project_hash` | rank of a combination by hockey-stick sums, product structure of the basis |
| C05 Un-ranking returns the basis element at the given position | proved | `get_hash_basis`, `fusion_hash`, `get_target_hash` | inverse of C04 through the invariant of the while loops |
| C06 Index is defined for every valid determinant and ignores the order inside a species | proved | `get_index_in_basis` with `reorder_basis_element` | the index depends on the occupation only |
| C07 get_target_hash returns the ind-th subset or raises IndexError | proved | `get_target_hash` (loops with fuel) | loop invariant: rank of the current subset + remainder = `ind`; error branch included |
| C08 Reordering yields the canonical representative | proved | `reorder_basis_element` | normal form `reorder det = detOf (occ det)` |
| C09 Site queries agree with each other for every set iteration order | proved | `get_indexes_of`, `get_spin_site` | set semantics arbitrary (`SetSem`), membership reasoning; error branches |
| C10 Spin reversal is an involution that exchanges up and down on every site | proved | `reverse_spins`, `reverse_spins_basis` | on occupations |
| C11 Spin reversal of states is an involution that preserves scalar products | proved | `reverse_spins_vect` | permutation of the basis, reindexing of the scalar product |
| C12 Joining two lattices keeps the occupation of both | proved | `extend_determinant` | occupation of an appended lattice |
| C13 Rotation of a square lattice is a symmetry of order four | proved | `rotate_determinant` | index arithmetic of the quarter turn; composition, inverse, bonds; non-square witness |
| C14 Rectangular bond matrix is the nearest-neighbour matrix of the grid | proved | `build_J/T/U_matrix`, `build_rectangular_bond_matrix` | entries of the block matrices, then coordinates |
| C15 Peripheral bond matrix is the planar neighbour matrix of the bordered block | proved | `build_bond_matrix_neel_outer_lattice`, `build_bond_matrix_neel_embedding` | entries of the assembled blocks against plane positions of border and block sites |
| C16 Two-block bond matrix is the neighbour matrix of two blocks side by side | proved | `build_bond_matrix_block_embedding` | entries against positions of two blocks side by side |
| C17 The bond list contains each bond exactly once | proved | `build_bond_list` | membership and count of each bond; negation for list restrictions |
| C18 Neighbour queries return exactly the sites at graph distance one and two | proved | `get_neighbors`, `get_second_neighbors` | set reasoning |
| C19 Collinearity test is geometric on row-by-row lattices | proved | `is_bond_linear`, rectangular branch | case analysis on coordinates |
| C20 Collinearity test is geometric on peripheral lattices | partial | `is_bond_linear`, peripheral branch | case analysis on coordinates; negation on one-site-wide lattices |
| C21 Collinearity test on relabelled lattices is independent of the relabelling found | proved | `is_bond_linear`, clusters branch incl. the search over eigenvectors (`Model/Clusters`) | rounded `V C Vᵀ` within 1/2 of a permutation conjugating the bond matrices; collinearity is a graph invariant; simple spectrum gives success, degenerate spectrum a failing run |
| C22 Diagonal second neighbours are the opposite corners of the tiles | proved | `get_diagonal_second_neighbors` | geometric lattice abstraction (`GeomLattice`) |
| C23 Collinearity test rejects triples that are not a path | proved | `is_bond_linear` errors | case analysis |
| C24 Hopping moves a hole to a neighbouring electron site and nothing else | proved | `compute_hopping_integral` | normal form of the target determinant, action on occupations |
| C25 Next-neighbour hopping exchanges a hole with an electron two bonds away, once per pair | proved | `compute_next_hopping_integral` | same, plus geometry of two-bond paths |
| C26 Static spin energy is the sum over bonds of J (Sz Sz - 1/4) | proved | `compute_static_spin_interaction` | fold to sum over bonds |
| C27 Spin flips use the same coupling as the static term | proved | `compute_spin_flip` | same; coupling classes compared with C26; negation on peripheral lattices |
| C28 Singlet displacement moves the hole across a pair of opposite spins | proved | `compute_singlet_displacement` | action on occupations; sign and coupling from collinearity |
| C29 Hole repulsion counts each pair of holes once | proved | `compute_hole_repulsion` | fold to sum over pairs of holes |
| C30 Building the Hamiltonian never fails and stays inside the matrix | proved | `build_hamiltonian`, `add_*` | totality: every target is in the basis, every coordinate in range |
| C31 The Hamiltonian matrix is the extended t-J Hamiltonian | proved | `build_hamiltonian` | refinement of the COO list to matrix elements on occupations |
| C32 The Hamiltonian is symmetric | proved | `build_hamiltonian` | symmetry of the specification of C31 |
| C33 The Hamiltonian is invariant under spin reversal | proved | `build_hamiltonian`, `reverse_spins` | reindexing of C31 by the spin reversal |
| C34 The Hamiltonian of a square lattice is invariant under quarter turns | proved | `build_hamiltonian`, `rotate_determinant` | reindexing of C31 by the quarter turn, rotation invariance of collinearity |
| C35 The Hamiltonian is additive in the switches and linear in the couplings | proved | `build_hamiltonian` switches and couplings | list concatenation; linear algebra of folds |
| C36 compute_energy is the diagonal of the static Hamiltonian | proved | `compute_energy` | comparison of folds |
| C37 compute_dynamic_interactions is the off-diagonal row of the Hamiltonian | partial | `compute_dynamic_interactions` | dictionary as a sum; negation: factor 2 of the spin flips |
| C38 The Hamiltonian conserves the total spin | partial | `build_hamiltonian`, `compute_S2` | exchange operators commute with every term (sums over occupations) |
| C39 S+S- acts on the intended basis vectors | partial | `compute_S_plus_S_minus(_det)` | position arithmetic; negation for a set order used by CPython; the exact condition on the order by comparing ranks of sorted and unsorted holes |
| C40 compute_S2 is the total spin operator | partial | `compute_S2`, `compute_S2_exp_val` | sum of C39, positivity by sums of squares; exact condition on the order of the sets (C40_total_spin_iff) |
| C41 Spin number and multiplicity name | proved | `compute_spin_number`, `compute_spin_multiplicity` | real arithmetic |
| C42 Occupation probabilities are probabilities | proved | `get_probability_spin_lattice`, `get_spins_probabilitites_lattice` | sums over the basis |
| C43 Occupation probabilities on the rectangular picture | partial | `get_probability_spin_rectangular_lattice` | sums; negation: squared norm divided twice |
| C44 get_dominant_determinants returns the largest coefficients with distinct determinants | partial | `get_dominant_determinants` | sorting of moduli; exact condition (different moduli among the largest); negation for ties |
| C45 get_most_dominant_determinants returns distinct dominant determinants even with ties | proved | `get_most_dominant_determinants` | loop invariant: indices found so far are distinct maxima |
| C46 Site-by-site display is faithful | partial | `get_displayable_determinant`, `get_displayable_basis`, `get_displayable_dominant_determinants` | character positions; negation: AttributeError |
| C47 Rectangular display is faithful | proved | `get_displayable_rectangular_lattice` | character positions of the text |
| C48 get_lowests_eig selects the lowest eigenvalues with their vectors | proved | `get_lowests_eig` | argsort as a sorted permutation |
| C49 Orthonormalised corrections extend the search space orthonormally | partial | `get_meaningful_corrections` | inner products, induction on the corrections |
| C50 Davidson returns before its iteration budget only with converged eigenpairs | proved | `modified_davidson_algorithm` | state machine with arbitrary oracles |
| C51 Ritz values never undershoot the spectrum | proved | `modified_davidson_algorithm` | Rayleigh quotient bounds with an orthonormal search space |
| C52 The Davidson search space is bounded | proved | `modified_davidson_algorithm` | invariant on the number of columns |
| C53 Deflating Davidson keeps values and vectors aligned | partial | `modified_davidson_algorithm_opt` | invariant on lengths; simultaneous acceptance witness for every exact library |
| C54 Saved results load back unchanged | partial | `save_data`, `load_data`, `recover_results` with the checks of `csr_matrix((data, indices, indptr))` | JSON values; C54_bad_arrays, C54_loaded_shape; negation for lattice type and restriction |
| C55 Results of different computations go to different files | partial | `save_data` names | digit strings; collisions |
| C56 Embedding opens the file that the computation saved | partial | names in `embedding.py` and `save_data` | comparison of strings |
| C57 A sweep visits every spin sector exactly once | proved | `perform_configurations_computations` | list of visited sectors |
| C58 The embedding pattern is an antiferromagnetic checkerboard | proved | pattern of `embedding_neel` | coordinates, parity |
| C59 The self-consistent border update assigns a probability law to every border site | proved | border update of `embedding_neel` | sums, induction over iterations |
| C60 Embedding keeps the Hamiltonian symmetric | proved | dressing in `embedding_neel` and `embedding_blocks` | symmetry invariant of the fold of added terms |
| C61 Static block dressing is rotation invariant | proved | static dressing of `embedding_blocks` | reindexing of sites by the turn |
| C62 Spin exchange across two blocks conserves the total counts | partial | spin exchange across two blocks | counts of the registers; negation for reversed neighbours |
| C63 The self-consistent block embedding returns only converged results | partial | main loops of embedding | loop invariants with an arbitrary solver |
| C64 Spectrum degeneracies are multiplicities | proved | `save_spectrum` levels | loop invariant |
| C65 Amplitude repartition is the counting function | proved | `plot_determinants_amplitude_repartition` | loop invariant |
| C66 Side-by-side display of two blocks is faithful | proved | `get_displayable_neighbor` | lines of C47 joined |
| C67 The lowest Davidson value never increases with the number of iterations | proved | `modified_davidson_algorithm` | nested search spaces, min-max |
| C68 A converged Davidson value is close to an eigenvalue | proved | `modified_davidson_algorithm` | spectral theorem and residue bound |
| C69 Davidson converges within dim/nb_val iterations if restarts are excluded | proved | `modified_davidson_algorithm` | dimension of the search space grows until it is everything |
| C70 The single-vector Davidson only returns converged pairs | proved | `davidson_algorithm` | state machine |
| C71 gramSchmidt orthonormalises | partial | `gramSchmidt` | inner products, induction on columns |
| C72 A sweep keeps the lattice type | partial | `perform_configurations_computations` | evaluation of the constructor |
| C73 The Néel embedding adds exactly the border interaction | proved | dressing of `embedding_neel` | explicit entries of the fold |
| C74 Static dressing of embedding_blocks | proved | static dressing of `embedding_blocks` | explicit entries; geometry of two blocks through the relabelling search |
| C75 Bars of the determinants plot are the largest weights | partial | `plot_embedding_effect_on_determinants` | sorting; exact condition (different weights among the largest); ties |
| C76 Reorganising spectrum curves stops and keeps the points | proved | `plot_spectrum_dependance` exchanges | termination measure, permutation of points |
| C77 Plots open the files that were written | partial | file names of plots, sweep and embeddings | comparison of strings |
| C78 Subplots fit in their grid | partial | subplot grid | integer square root |
| C79 The stored Hamiltonian is the diagonalised one | partial | results stored by the embeddings | unfolding of the loops |
| C80 perform_initial_computations returns eigenstates of the t-J operator | proved | `perform_initial_computations` as a whole | composition of C31, C32, C40, C50, C68 read as functions on spin configurations |
| C81 compute_S2 run by CPython | proved | hash tables of CPython sets (`Model/CPythonSet`), outside /repo | invariant of the probing: 5i+1 runs through all slots modulo a power of two, elements stay reachable; the number of slots as a function of the number of elements (`tableSize`), elements with different remainders in the slots of their remainders; C81_total_spin_iff through C40_total_spin_iff: unsorted holes have a larger rank, so exchanged determinants are missed |
| C82 The Davidson search space grows until dim_max | partial | loop of `modified_davidson_algorithm` with its trace | chain of search spaces, contract of QR |
| C83 Projection of a matrix on an orthogonal complement | proved | `perform_matrix_orthogonal_projection` | orthogonal change of basis |
| C84 The display of the peripheral embedding is faithful | proved | `get_displayable_outer_embedding_lattice` | lines of the text, with positions `periPos` |
| C85 compute_spin_and_multiplicity gives spin and name of every eigenvector | partial | `compute_spin_and_multiplicity` | cases on the vectors |
| C86 Phase diagrams show energies and spins | partial | computing part of `save_phase_space`, with the positional call of the diagonalisation | C30 and the outcome of the call |
| C87 Sectors with up and down exchanged have the same spectrum | proved | constructBasis and buildHamiltonian of the two sectors | the eigenspaces of the matrix are carried to those of the operator in the sector, where the exchange of up and down is a bijection |
| C88 Energies of a sector occur in every less polarised sector | proved | constructBasis and buildHamiltonian of the two sectors | the lowering operator commutes with every operator that permutes sites, and loses no state with more up than down spins |
| C89 Embedding results can be saved and loaded back | partial | FileSys (content of ./initialComputations), writeJson (open truncates before json.dumps), saveIn (except OSError: mkdir and write again), embeddingContent, savePeripheral, saveBlocks, FileSys.load | round trip and frame property if there is no initial guess |
| C90 The embeddings start from the results that save_data wrote | partial | saveDataFs (with its side effect on the initial guess), FileSys.load with the file name built by the embeddings | the whole chain if the five switches encoded in file names are on |
| C91 Products of spin projections | proved | computeSpinZ, computeSpinsZTwoBodiesDet, computeSpinsZTwoBodies | loop invariant over the basis, un-ranking (C05), sum over occupations |
| C92 The Néel embedding always returns | proved | davidsonSolver (Model/Embedding) is modifiedDavidson on the dressed matrix; embeddingNeel as for C59 | C92_nonzero_vectors: every Ritz vector is a combination, with non-zero coefficients, of an orthonormal search space or of the single starting vector, so Solver.Good holds, which C59, C73 and C74 assume; C92_always_solves; C92_neel_returns by induction on the iterations with the invariant that the border probabilities are a law on the peripheral sites |
| C93 The static block embedding always ends | proved | embeddingBlocks with davidsonSolver for one state, started from the ground state of the block | C93_blocks_return: blockSetup_ok (with C10, C16), blockDressed_total (indices stay in the matrix, with C13), induction on the iterations |
| C94 Density plots show each site at its place | partial | NdArr.drawnAt (Model/Plots): interp2d puts z[j][i] at (x[i], y[j]) | C94_flipped: for all inputs the point (x, y) shows the site (x, H-1-y); C94_one_row_partial: correct for lattices of one row; C94_simple_partial: correct for states with a non-degenerate energy; C94_upside_down: a hole on the lower of two sites is drawn on the upper one |
| C95 The hole density picture is saved | partial | holePanels, holeFile, holePicture (Model/Plots); BoolInteractions.read gives an AttributeError for bV_embedding, which the constructor never stores | C95_panels_partial: the panels and their cells (with C78 and C94), then the AttributeError; C95_never_saved: no input whatever reaches the saving |
| C96 The panel 'Charge density' shows the charge | partial | electronPanels, chargeArray (Model/Plots) | C96_third_panel: the panel is the up density minus the down density (the spin density); C96_no_down_partial: the charge in the sectors without down spin; C96_not_the_charge: in all other sectors, for every state, it differs somewhere from the charge; C96_no_state |
| C97 Electron density pictures do not overwrite each other | partial | electronFile (Model/Plots) | C97_names_partial: true up to 10 electrons for sectors with the same number of electrons, by reading the numbers off the name; C97_collision: an infinite family of collisions from 11 electrons on |
| C98 Mirrors and turns of the rectangle are symmetries | proved | buildHamiltonian; the symmetries are in the specification (Spec/Symmetry), the code has only rotate_determinant | C98_hamiltonian from C31 and the invariance of the textbook matrix elements; C98_moved_exists: the image of a determinant is one determinant of the basis; C98_density: the image of a non-degenerate eigenvector is plus or minus itself |
| C99 Every Davidson value is an upper bound of its eigenvalue | proved | modifiedDavidson (Model/Davidson.lean); the libraries by the contracts ExactEigh and ExactQr. | Poincaré inequality: a combination of the first k + 1 Ritz vectors is orthogonal to the (at most k) eigenvectors below (more unknowns than equations); its Rayleigh quotient is compared in both bases. |
| C100 No Davidson value increases with the number of iterations | proved | modifiedDavidson (Model/Davidson.lean); the libraries by the contracts ExactEigh and ExactQr. | Cauchy interlacing for the compression to the next search space, which contains the Ritz vectors (both at a restart and otherwise); induction over the loop. |
| C101 The curves of the spectrum against t/J | proved | `plot_spectrum_dependance` (the sweep), with `perform_initial_computations` | induction on the number of ratios: both sets of curves are extended by exactly one point per computed state |
| C102 The sweep rescales all exchange couplings together | proved | the couplings of `plot_spectrum_dependance`, `build_hamiltonian` | linearity of the built Hamiltonian in the ten couplings (C37) |
| C103 Both spectra against t/J are saved | partial | `plot_spectrum_dependance` (drawing loop, colours, line styles), the reordering loop | the drawing loop succeeds exactly on points with a colour and a style; permutation property of the reorganised curves (C76) |
| C104 The energies do not depend on the sign of t | proved | `build_hamiltonian` with all its terms (as in C31) | the product of the checkerboard colours of the holes is a diagonal sign that maps one operator to the other: a hop by one bond changes the colour, a hop by two bonds and a singlet displacement do not |
| C105 All spin sectors share the lowest energy without antiferromagnetic couplings | proved | `build_hamiltonian` (as in C31) | for an eigenvector of a sector the polarised state with the same hole distribution has at most the same energy (Cauchy-Schwarz over the spin configurations of each hole pattern), the Rayleigh bound gives an energy of the polarised sector below it; conversely C87 and C88 give the polarised energies in every sector; the sign of t is removed by C104 |
| C106 What the dynamic part of the embedding in blocks adds | proved | the dynamic part of `embedding_blocks` (embedding.py 528-719) with `perturbators_memory`, the perturbed configurations, `extend_determinant`, `compute_energy`, `compute_dynamic_interactions` on the frontier, the four rotations and `add_ham_coo` | loop invariant: the matrix has got exactly what is due to the registered perturbators, and the register contains exactly the states reached so far (indices and particle numbers determine the occupation); the couplings of one perturbator are computed from the images of the interactions restricted to the frontier; the sum over pairs of the list of coupled determinants is the sum over all pairs of different states |
| C107 The matrices diagonalised by the embedding in blocks with dynamical effects | proved | `embedding_blocks` (embedding.py 341-766) with both dressings and the self-consistent loop | C106 for each determinant, C74 for the static part, and an induction over the iterations that keeps the state and the energy each of them starts from |
| C108 The point of the phase diagram is computed with its own couplings | partial | the couplings set in the double loop of `save_phase_space` and the axes at which its results are drawn (postProcessing.py 409-411, 421-429, 446-460), `build_hamiltonian` | C108_hamiltonian_partial gives the matrix that is really built, element by element, from the indices of the point; C108_rows and C108_columns say exactly for which points these couplings are those of the axes |
| C109 Marshall's sign rule and the unique lowest state without holes | proved | `construct_basis` and `build_hamiltonian` on rectangular lattices | the matrix elements between different determinants (C31) times the Marshall signs are not positive, every determinant is reached from every other by exchanges on bonds (the lattice is connected), so Perron's argument applies: the moduli of a lowest vector form a lowest vector, a zero would spread |
| C110 Total spin and order of the lowest states without holes | proved | `construct_basis`, `build_hamiltonian`, `compute_S2`, `compute_S2_exp_val`, `compute_spin_number` | the lowest state is unique (C109) and so has a definite total spin (C38); by the sign rule it is not orthogonal to a product of singlets on pairs of successive sites (which have opposite colours), whose total spin is known; for the order: an equal energy would make the lowest state an image of the lowering operator, which is orthogonal to that product |
| C111 The unique ferromagnetic ground state with holes | proved | `build_hamiltonian`, `construct_basis`, `compute_spin_number` as in C31, C38 and C41 | C111_signs, C111_unique by a Perron-Frobenius argument with holes (exchanges of neighbours connect all determinants); C111_total_spin lowers the polarised state with the signs kept; C111_spin_number under HolesInOrder, which C39 and C81 decide |
| C112 The compressed rows stand for the Hamiltonian | proved | `csr_matrix((data, (row, col)))` with the sorting of each row as a parameter, `sum_duplicates`, `csr_matrix((data, indices, indptr))` with its checks, `A.dot(x)`, `A.diagonal()` | C112_canonical (any arguments for which build_hamiltonian returns), C112_arrays and C112_operator through C31, C112_sorting (the arrays do not depend on the sorting), C112_product |
| C113 A sweep leaves the results of every sector in its file | partial | `perform_configurations_computations` with the configuration rebuilt at every turn, `data` changed in place by save_data, and the file system; built from the models of `perform_initial_computations` (C80), `save_data` and `load_data` (C54, C92) | C113_sweep_partial by induction over the sectors; C113_overwritten: with 11 y + z electrons (11 to 108) the file of y up spins and 10 y + z down spins contains another sector; C113_too_many: with dim_max given and a smallest sector with fewer determinants than eigenpairs the first run raises IndexError and nothing is saved |
| C114 The pictures of every sector show its results | partial | `generate_plots`, `generate_plots_configuration` and `InputPlotting` over the model of the files (C54, C113), with the tree of directories, `mkdir` and the second try to save; the contents of a picture are the numbers given to matplotlib (C64, C65, C78, C95) | C114_pictures_partial by induction over the sectors and the states, with the names told apart; C114_stops: with holes and bool_holes, as in main.py, the first sector raises AttributeError and at most its spectrum is saved; C114_stops_anyway: the same end for any contents of the files |
| C115 The energies fall with the exchange and rise with the repulsion, without jumps | proved | build_hamiltonian and the terms (Model/Hamiltonian.lean, Model/Interactions.lean); the couplings are compared in the structures `Raised` and `Within` | `C115_monotone` compares the ascending energies one by one, `C115_continuous` bounds their change, `C115_concave` is the concavity of the lowest energy, `C115_flip_alone` shows by two sites that the flips alone do not have the property; the exchange is written as a sum of squares, the bound between the quadratic forms is carried to the eigenvalues (Lemmas/Weyl.lean) |
| C116 The border of the Neel embedding moves the energies by a bounded amount | proved | embedding_neel with its iterations (Model/Embedding.lean) | `C116_shift` (both bounds in every iteration), `C116_no_holes`, `C116_returned`; from the explicit dressing C73, the probabilities C59, the number of border neighbours of a site (`near_border`, `diagonal_border`, `border_near`), the comparison of eigenvalues and, for the returned energies, C99 |
| C117 The run of main.py ends with a faithful report and a file | partial | Model/MainRun: neelOnDisk (embedding_neel with the file it loads, the conversion of the loaded compressed rows to triples, its prints and its saved file), mainReport and mainRun (main.py 504, 533-537). | C117_run_partial: composition of the round trip of the files, the totality of the embedding, the dressing, the Ritz values, the most dominant determinants and the pictures. C117_isolated_fails and C117_isolated_witness: the number printed for the isolated block is always the embedded energy (main.py 534 formats the same value twice); in the witness the file contains 0 and main.py prints -4. C117_file_name: the literal file name in main.py. |
| C118 Initial guesses made of determinants are orthonormal | proved | Model/MainRun: setEntry, guessMatrix, guesses16, guesses18 (main.py 447-456, 478-487). | C118_guess by induction over the list with the rank theorem of the basis; C118_orthonormal; C118_main for the two lists in main.py. An example shows the IndexError for sites in another order. |
| C119 Spin projection and the selection matrices | proved | Model/SmallLattice: computeMs, buildKMatrix, buildLMatrix. | C119_projection by induction over the sites; C119_first_and_last and C119_ends by computation of the products for every dimension. |
| C120 The relabelling search decides collinearity on two joined blocks | proved | the bond matrix of two joined blocks and the search of is_bond_linear (Model/Lattice, Model/Clusters), eigh being any sorted orthonormal diagonalisation in an ordered field | an eigenfunction is determined by one number: along a path by its first value; on 4x2 and 6x3 lattices by splitting into parts symmetric and antisymmetric in the rows and Bezout identities between their characteristic polynomials; C120_exact over the real numbers leaves no hypothesis on eigh; C120_degenerate builds two independent functions of the kernel from reflections |
| C121 One hole in a ferromagnetic lattice moves like a free particle | proved | construct_basis, build_hamiltonian with all its terms, perform_initial_computations | products of standing waves are eigenvectors (addition theorems of the sine), they are complete because their eigenvalues along one direction differ; the sectors with down spins through C105 |
| C122 Sum of the energies and width of the spectrum | proved | construct_basis, build_hamiltonian with all its terms | the diagonal elements of C31 are summed over the basis, which lists every occupation once; by symmetry under permutations of the sites every pair of sites has the same number of occupations with given contents; numbers of bonds and diagonals of the rectangle counted; spectrum symmetric by C104; Gershgorin discs for the last bound |
| C123 Window of the energies around those of the hopping | proved | build_hamiltonian as for C31; the energies are the sorted values of an orthonormal basis of eigenvectors | monotonicity and continuity in the couplings (C115) between the full matrix, the one without exchange and the one with the hopping alone; bonds and diagonals of the rectangle counted; the bounds of C122 for the hopping |
| C124 A moving hole aligns the spins on a rectangle, not on a row | proved | build_hamiltonian as for C31, compute_spin_number as for C41 | around a square of four bonds a hole exchanges any two spins; a hole is carried to the square by moves that commute with the exchange, so all neighbouring spins can be exchanged and all occupations are reached; Perron-Frobenius after the change of signs; total spin by the lowering operator from the polarised state; on a row the list of the spins is conserved, states of the sector are families of polarised states indexed by the orders of the spins |
| C125 Holes on a row are free: the whole spectrum in closed form | proved | The Hamiltonian of the code on a rectangle of one row or column with the flag of the hopping alone; wave numbers and energies are written with Mathlib's cosine over the reals. | The determinants of standing waves at the ordered positions of the holes are eigenstates: each hole moves to a neighbouring site, the order of the holes is kept, and positions occupied by another hole give a determinant with two equal rows. They are independent because the waves are orthogonal, and their number is the dimension of the polarised sector; C124 carries the result to all sectors. The lowest energy follows from the order of the cosines and a telescoping sum. |
| C126 The denominators of the Davidson corrections are not zero | partial | StrictDavidson.lean repeats the loop of modified_davidson_algorithm with a division that ends with an error for a zero denominator (numpy gives inf or nan), and the same for modified_davidson_algorithm_opt and davidson_algorithm, where lin.inv would raise LinAlgError; guesses made of determinants are guessMatrix and guessColumns. | The claim is false for determinants as first vectors. C126_agree: whatever the strict version returns the model of the other properties returns too; C126_agree_opt and C126_agree_single say the same of the other two algorithms. C126_no_second_iteration: from basis vectors that the matrix does not connect, the run stops in the first iteration or divides by zero. C126_vectors_fail, C126_determinants_fail: it divides by zero when each of the determinants can hop away from the others and the tolerance is below the hopping. C126_main_guesses_fail: both guesses of main.py are of this kind, for all couplings with 6 tol^2 < t^2. C126_below_partial: when the quotients of the first space are below all diagonal elements, no denominator is ever zero, in any iteration. |
| C127 The moving electrons are fermions | partial | The Hamiltonian as before; the specification (Spec/Fermi) builds annihilation operators as matrices between sets of occupied modes and writes hopping, exchange and repulsion with them. The singlet displacement is not written with operators. | The operators satisfy the anticommutation relations. One hole: the sign of a configuration counts the parity of the hole's site number, which undoes the sign of every hop up to a common factor -1, itself removed by the colour of the hole when there is no hopping to second neighbours. Row: a hop passes no electron. Failure: two electrons exchange their places on a tile by four hops, so the product of the four elements is -t^4 for fermions and t^4 in the code. Energies: no closed walk of four steps is heavier for fermions and the tile is lighter, so the traces of the fourth powers differ. Lowest energy: a Perron comparison, equality would give the excluded choice of signs. |
| C128 save_phase_space leaves one picture per sector and the data as they were | partial | `Model/PhasePictures.lean`: the loop over the sectors with the attributes it changes (`nalpha`, `nbeta`, the couplings; `nb_conf` and `spin_number` are computed once by the constructor), the loops over the grid, the sizes `pcolormesh` accepts, the pictures and the missing directory. | For the states number 2 and above, equal numbers of values and an existing directory: the sweep ends, every sector has its picture, all zeros (C86), other files are unchanged. It ends exactly then (or with one value of V more before matplotlib 3.5); otherwise no picture is saved at all. The data are not restored: afterwards all spins are up, the couplings are those of the last point, `nb_conf` and `spin_number` are those of the start, so `nb_conf` is not the dimension unless all spins were parallel. |
| C129 The picture of an embedding compares it with the isolated lattice | partial | `Model/GeneratePlots.lean`: the files that are loaded, the bars, the two pictures and the directory that is made when it is missing; `Model/Files.lean`: the saved files. | From the saved results to the pictures of one sector: `generate_plots_configuration` ends, both files show the min(nb_conf, 30) largest squared amplitudes of the isolated and of the embedded ground state, no other picture changes. Negations: exchanging amplitudes of the embedded state between determinants changes no picture; a second kind of embedding replaces the picture of the first; `generate_plots` ends in an exception if the embedding of one sector is missing. |
| C130 embedding_blocks starts from a saved file and leaves its results in another | partial | `blocksStart`, `blocksData`, `blocksOnDisk` (Model/BlocksRun.lean): embedding.py 341-766 with the file it loads, the loop `embeddingBlocks`, the conversion to compressed rows and `saveBlocks`. | C130_blocks_partial by induction over the iterations (`blockLoop_pairs`): a chain of energies and states, each related to the one before by the specification `fieldEl` (Hamiltonian of the block, interaction with the neighbours, second-order couplings). C130_isolated_start_partial and C130_neel_start_partial show that the files of the two earlier computations can be used, C130_chain_partial runs all three. |
| C131 How far the neighbouring blocks move the energy | proved | `blocksOnDisk` (C130) with `embeddingBlocks` and `modifiedDavidson`. | C131_field bounds what the neighbours add to each matrix element by counting, for a site of the block, the sites of the neighbour next to it and across a tile; the four neighbours by the four rotations of the block. C131_step carries the bounds over to the energy of every iteration, with C67_guess (the lowest value is at most the Rayleigh quotient of the initial guess) for the comparison with the isolated block. C131_saved states them for the energies in the two files. The lower bound is attained by four up spins next to reversed spins (example `downCase` of C130: -2 for J = 2). |
| C132 The total spin can be computed with the configuration that save_phase_space leaves behind | partial | `compute_S2` with the attribute `nb_conf` of a changed object (`Model/StaleSpin`) | un-ranking beyond the last determinant raises IndexError; the loop runs up to the old dimension |
| C133 Converged Davidson values belong to different eigenvalues | proved | `modifiedDavidson`, `performInitial` (`Model/Davidson`, `Model/Initial`) | the residues of an orthonormal family are moved into the matrix by a correction of bounded form, and Weyl's inequality is applied to the corrected matrix, which has the values as exact eigenvalues (`Lemmas/OwnEigenvalues`) |
| C134 Pattern and number of the stored elements of the Hamiltonian | proved | `buildHamiltonian` with the six terms, `SpMat.toCsr` (`Model/Hamiltonian`, `Model/Csr`) | the triples of each term are followed from its list of images to the moves of the occupation (`Linked`); moves give different occupations (the sites that change determine the move), the occupations that fit a move are counted by exchanging sites, the moves of a rectangle by sums over rows and columns |
| C135 Joining two blocks does not raise the lowest energy | proved | `build_rectangular_bond_matrix`, `build_hamiltonian` | C135_side_by_side, C135_stacked: the product of the two states is a state of the whole lattice; moves of holes, second-neighbour moves and displacements of pairs across the cut change the number of holes of a part (Lemmas/Glue), exchange bonds across the cut only lower the energy (Lemmas/TwoParts), the bonds of the cut are counted through C31 and the counts of C115; C135_copies by induction; C135_condition: witness that the condition on the exchange is needed |
| C136 Dominant determinants of a non-degenerate state come in pairs of reversed spins, and the report shows one of each twice | proved | `dominantDeterminants`, `highestsDet`, `reverseSpins`, `buildHamiltonian`; the eigenvector is any exact one | The reversal commutes with the matrix elements (`hamEl_rev`) and keeps the sector, so a simple eigenvector is mapped to a multiple of itself, with factor 1 or -1; the positions are exchanged in pairs without fixed position, so every modulus is reached an even number of times, and the decreasing list of moduli has equal neighbours 2m, 2m+1; `C109_unique` for the antiferromagnet |
| C137 Unpolarised blocks exert no magnetic field | proved | `embeddingBlocks`/`blocksOnDisk`, `spinsProbabilities`, the Davidson loop, as for C130 and C131 | `C137_densities`: from the invariance of the Hamiltonian under reversal (C36) the probabilities of up and down are equal in a simple eigenvector. `C137_field`: the added field is constant (one facing pair per row of the block, `facing_pairs`). `C137_chain`, `C137_saved`: by induction over the iterations, a Rayleigh quotient equal to the lowest one is an eigenvector and the eigenspace has dimension one (C109) |
| C138 Four-sided block embedding works on square blocks only | proved | `rotatedIndex`, `getIndexInt`, `getDistanceHashInt` (the functions of the index on Python ints, since rotated sites can be negative or too large), `rotateDeterminant`, `addHamCoo`, `blockDressed`, `embeddingBlocks`, `blocksOnDisk` | C138_index finds the determinant: a permutation of the sites lies one below the rotated sites, so the last sites all go beyond the last combination. C138_no_dressing and C138_never_returns exclude a result, C138_static_iff gives the exact condition and the exception, C138_files the run with its files. |
| C139 Dynamical embedding next to reversed blocks works only with equal spins or without holes | proved | `blockDynamic`, `blockExchange`, `blockPair`, `addPerturbator`, `memoryKeys`, `countsA`, `countsB`, `configOf` (with the negative numbers of down spins that arise for a block of up spins only), `blockDressed`, `embeddingBlocks`, `blocksOnDisk` | C139_no_dressing: on two facing sites the exchange of a hole and an up spin is reached for some pair of determinants (`exists_content`, `facing_sites`), its key is not in the register (C62_reversed_key_error) and the register never gets new keys (`HasKeys`). C139_never_returns and C139_files lift this to the loop and the files. C139_no_holes: every exchange is of two spins, has a key, and is coupled to nothing since the restricted sets of sites are empty. C139_returns_iff puts both together with C107. |
| C140 The converged Davidson energies are the lowest ones | partial | Model/Davidson.lean `modifiedDavidson`; Model/Interactions.lean `buildHamiltonian` | Ritz values of a search space that contains given eigenvectors (interlacing), Temple's inequality from the expansion of the Ritz vector in eigenvectors, and the first iteration from an invariant search space, whose residues vanish. |
| C141 Davidson keeps the symmetry of its initial guess | partial | davidson.py 229-303: modifiedDavidson with exact eigh and QR (reduced, completing dependent columns arbitrarily); the sectors are subspaces closed under the matrix and its diagonal | Induction over the search spaces: Ritz vectors, residues and corrections stay in the subspace, and QR does for independent columns (dimension count). One state and constant diagonal: the residue is orthogonal to the search space, so the columns are always independent. Applied to mirrors, turns and spin reversal. Dimension count for the negation. |
| C142 The deflating Davidson goes on with every Ritz vector that has not converged and finds each state once | partial | `deflateTurn`, `optStep`, `optLoop`, `modifiedDavidsonOpt` (Model/Davidson.lean) and the Rayleigh-Ritz step `ritz`; the overwritten columns of `ritz_vectors` (numpy views in a tuple assignment) are those of the code. | `deflate_ritz` computes the list of Ritz vectors after the deflation loop: every accepted position holds the first Ritz vector. `C142_kept_partial`: the first Ritz vector and all unconverged ones behind the first `nc` positions (`nc` the number of converged ones) are in the span of the next search space. `C142_kept_iff`: if at most one converged Ritz vector stands behind the first `nc` positions, the others are kept if and only if no correction survives. `C142_lost`: a matrix of order 5 for which, with every exact library, an unconverged Ritz vector with residue at least 1 is not in the next search space. `C142_repeats`: for more values than the dimension the function returns more values than there are states. `C142_returns`: the function always returns. |
| C143 The pictures of the spectrum against t/J are in the files of their sector | partial | `dependancePictures` and `saveCurves` (Model/DependancePictures) run the sweep, draw both figures and save them in a tree of directories and pictures, with the second try after making the directory. | Partial, because the code violates the claim. With the directory of the lattice and drawable states at the first ratio all four pictures are saved under the names of the sector, with the lines, colours and styles of the legend, and nothing else changes (C143_saved_partial). The call ends normally exactly under these conditions (C143_iff). All outcomes, among them the replaced plain pictures next to old extended ones, are in C143_outcome; without the directory of the lattice nothing is saved after all diagonalisations (C143_no_directory). Sectors share files exactly for the numbers of electrons that violate DistinctNames (C143_names_iff, C143_collision). |
| C144 The densities of a level do not depend on the run | partial | `probabilitySpin` (Model/Observables) of the eigenvectors of the matrix of `buildHamiltonian`. | Partial, because the claim is false for single states of a degenerate level (C144_not_determined: one hole in a square of up spins). For every orthonormal family that spans the level the densities summed over the family are the same (C144_level_partial), have all symmetries of the rectangle (C144_symmetric) and, with as many up as down spins, are the same for the two spins (C144_reversed). The density on a site is the same for all states of the level exactly if the density operator is a multiple of the identity on it (C144_determined_iff). Families exist for every level of a real symmetric matrix (levelBasis_exists). |
| C145 The hole picture of an energy is the same in all spin sectors | proved | `constructBasis`, `buildHamiltonian`, `probabilitySpin` for two sectors of one lattice; total spin `spin2` of the specification | `C145_multiplet` (lowering one spin keeps energy, total spin and hole densities; norms by the ladder), `C145_pictures` (nondegenerate energies), `C145_ferro` (lowest states) |
| C146 The spins of an energy follow from its multiplicities in the sectors | proved | `constructBasis`, `buildHamiltonian`, `computeSpinNumber` for the sectors of one lattice; counted with `spinCount`, the dimension spanned by the eigenvectors of given total spin | `C146_least`, `C146_others`, `C146_all_spins`, `C146_reported` (raising is adjoint to lowering; its kernel are the states of least spin) |
| C147 The curves of the spectrum against t/J rise | proved | `dependanceCouplings`, `dependanceBools`, `ratio`, `dependanceSweep` (Model/Dependance), `buildHamiltonian`, `performInitial` | `C147_rise` by the monotonicity of C115 for the rescaled couplings, the singlet displacement being without influence where it is switched off (`build_without_sd`); `C147_concave`: the couplings at a ratio with reciprocal between two others are the same combination of theirs, then C115; `C147_points` from C99 (a returned value bounds the exact energy of its number from above) and the rounding; `C147_sum`, `C147_strict` from the sum rule of C122, the rescaled couplings keeping the exchange independent of the holes |
| C148 The field of the Neel embedding in closed form | proved | Through `embeddingNeel` (C59, C73) with its loop, border probabilities and dressing. The number of border bonds of a site is stated from its row and column alone, the pattern from its parity. | `C148_first` is the field of the first iteration, `C148_next` of each later one, from the step relation of consecutive iterations and the geometry of the border. `C148_corners` counts the border sites across a tile. `C148_window` gives the bounds and the determinants which reach them, from the count of all border bonds. |
| C149 The iterations of the Neel embedding lower a mean field energy | proved | Through `embeddingNeel` (C59, C73, C148). The solver is any function; the one exact solver in the example exists by compactness of the sphere. | `C149_identity` from the closed form of the field (C148) and the symmetry of the interaction with the image; `C149_descent` is its sign; `C149_total` adds the iterations up by induction over the trace; `C149_bounded` bounds the mean field energy from below, from the count of the border bonds. `C149_energies` treats first and later iterations through C148. `C149_cycle` is the run that never settles, by induction over the iterations from one period. |
| C150 The energy between neighbouring blocks is that of independent sites | proved | Through `embeddingBlocks` (C60, C74). The probabilities are sums of squared coefficients, the sides are lists of sites by formulas, both apart from the model. | `C150_field` from C74, by matching the pairs of near and diagonal points of the joined blocks with the rows, for each of the four turns; `C150_mean` by exchanging the sums over determinants and sides; `C150_first_column` from the closed form. |
| C151 With reversed spins the iterations of the block embedding lower a mean field energy | proved | Through `embeddingBlocks` (C74, C150). | `C151_identity` from the closed form of the mean values (C150) and the symmetry of the interaction of two columns; `C151_descent` and `C151_unreversed` are the sign of its last term with and without the reversal; `C151_repeats` adds that only the first column matters (C150); `C151_total` adds the iterations of a run up; `C151_square` derives the even sides of a square block from the mirror images in a side and in a diagonal. |
| C152 The embedding of a square block in four neighbours keeps the symmetries of the square | proved | Through `embeddingBlocks` and `buildHamiltonian` (C74, C98, C150). | `C152_matrix` from the closed form of the field (C150): a mirror image takes each side to a side run through backwards; `C152_state` because the moved state is a multiple of the state; `C152_run` by induction over the iterations; `C152_descends` puts this into C151. |

## 5. Partial properties: what fails or is missing

Each failure is itself a theorem with a concrete witness, named in the note.

* **C20** fails on one-site-wide lattices (witness proved); proved otherwise Exact condition: right for all triples if and only if the block has at least two rows and two columns (C20_right_iff).
* **C37** The full claim is false with the spin flips on: the dictionary holds J where the matrix holds J/2 (C37_spin_flip_doubled). Proved: values = matrix elements + flip part once more, exact when bij is off. Exact condition per determinant: the dictionary is right if and only if the flips are off or every bond of the determinant with opposite spins has a zero coupling (C37_right_iff).
* **C38** Commutation with the total spin operator (3/4 per electron + exchange - 1/2 per pair) is proved without condition (C38_conserves_total_spin). Commutation with the output of compute_S2 needs the set order to list hole sites increasingly, because compute_S2 may otherwise raise IndexError (C39_set_order_matters); always true with at most one hole. For the order CPython uses, C81 tells exactly which lattices are concerned. Extended to parallel spins, the exact condition under which compute_S2 is the total spin operator: C38_wherever_right_partial, in numbers for CPython C38_cpython_partial.
* **C39** The full claim (whatever the set order) is false: C39_set_order_matters, 3x3 lattice, two holes, the order CPython uses for {1, 8}. Proved when hole sites are listed increasingly; this holds for every set order with at most one hole. For the order CPython uses, C81 tells exactly which lattices are concerned. C39_right_iff: for every set order the claim holds exactly with parallel spins or when hole sites are listed increasingly.
* **C40** Proved under the hypothesis HolesInOrder of C39 (always true with at most one hole); without it compute_S2 can raise IndexError. C40_total_spin_iff: for every set order, compute_S2 is the total spin operator exactly with parallel spins (C40_parallel, no hypothesis on the order) or under HolesInOrder, so the hypothesis cannot be weakened. For the order CPython uses, C81 tells exactly which lattices are concerned.
* **C43** The full claim is false: the probability is divided by the squared norm twice, so the three species sum to 1/norm^2 (C43_sum_is_inverse_norm, C43_not_normalised). Proved: placement and value for all vectors, sum 1 for normalised vectors, errors. Exact condition: the arrays are the probabilities if and only if the vector has norm 1 (C43_right_iff).
* **C44** The full claim is false for coefficients of equal modulus (C44_ties_repeat: a determinant twice, wrong sign). Exact condition: the result is right if and only if the largest coefficients have different moduli (C44_right_iff). Number and moduli of the results for all vectors. For symmetric states see C136.
* **C46** get_displayable_determinant proved faithful; get_displayable_basis and get_displayable_dominant_determinants always raise AttributeError on non-empty input (C46_displayable_basis_fails, C46_displayable_dominant_fails).
* **C49** Holds whenever a correction survives. If none survives the function returns the search space itself (C49_none_survives), whose columns are not orthogonal to the search space. Exact condition: the result extends the search space if and only if one correction differs by more than droptol from every vector of the search space (C49_right_iff).
* **C53** Holds if no two residues are accepted in the same iteration. False otherwise: C53_simultaneous shows, for every exact library and every symmetric matrix, that with a block of full dimension all values are stored but only one vector. Exact condition, for every exact library and symmetric matrix: every returned value has a unit vector with residue within the tolerance if and only if no iteration accepts two residues (C53_aligned_iff, C53_lost).
* **C54** All numerical content is restored; the lattice type is not (C54_lattice_type_lost) and the restored sites_restriction is a list of lists on which get_indexes_of always raises TypeError (C54_restriction_unusable). The compressed rows that are written stand for the Hamiltonian: C112. C54_bad_arrays: a stored Hamiltonian whose row pointers do not fit the other two arrays is refused by the check of csr_matrix; C54_loaded_shape: the arrays of every file that loads fit together and have the dimension of the stored configuration. Exact condition: C54_same_iff.
* **C55** Holds for lattices with at most 9 sites and for exactly the sweeps whose number of electrons satisfies DistinctNames (C55_sweep_exact, C55_sweep_sizes); false in general (C55_collision, C55_bz_invisible).
* **C56** The names agree exactly if the five encoded switches are on (C56_names_agree_iff_partial); counterexample C56_wrong_file.
* **C62** Proved for neighbours that are not reversed, and for reversed ones when the block has as many up as down spins. False otherwise: countsB takes the numbers from the block, so either particles are not conserved or the register has no such key; a concrete run raises ValueError (C62_reversed_fails), and C139 shows that with holes and different numbers of up and down spins every run raises. What the dynamic part adds when it does not raise: C106 and C107.
* **C63** The last clause is false: after max_iter iterations embedding_blocks returns None (C63_no_last_results), and a diagonalisation without eigenvalue is repeated for ever (C63_endless). Proved: returned results are converged, at the first converged iteration, at most max_iter iterations, one diagonalisation each when the solver finds an eigenvalue. C63_returned_iff: a run that ends gives its results exactly if one of the changes was small.
* **C71** Proved for square arrays; with fewer columns than rows the function always raises IndexError (C71_rectangular_fails). Exact condition for independent columns: right if and only if the array is square (C71_right_iff).
* **C72** Only periodic lattices keep their type; C72_sweep_loses_lattice_type shows that all others lose it. Exact condition: C72_sweep_iff.
* **C75** Exact condition: the positions are right if and only if the n largest weights are different (C75_right_iff); with different amplitudes the bars are the n largest weights, each determinant once (C75_highest_partial). Fails with ties: list.index finds the same determinant again (C75_ties_repeat).
* **C77** Holds for the sweep (C77_sweep_files_partial) and for embedding_blocks (C77_blocks_partial). Fails for embedding_neel, whose file is in another directory (C77_neel_never_opened), and different incomplete switch sets share a file of embedding_blocks (C77_switches_invisible). C77_shared_iff: the exact condition for a shared file.
* **C78** Holds for at least 4 subplots. For 1 to 3 subplots the axes array is not two-dimensional: TypeError (C78_single_cell); for 0 ValueError. Exact condition: C78_right_iff.
* **C79** Holds for embedding_blocks (C79_blocks_partial). embedding_neel stores the Hamiltonian of the isolated block with the eigenstates of the dressed one (C79_neel_isolated, C79_neel_fails). C79_neel_iff: a diagonalised state is an eigenvector of the stored matrix with its energy exactly if none of its determinants interacts with the border.
* **C82** Corrections and contents proved for all runs. Growth holds for dim_max >= dim + nb_val (C82_grows_partial); below that, and with the default value, the test on the number of rows restarts in every iteration (C82_always_restarts, C82_no_growth). Exact condition: C82_growth_iff.
* **C85** False: with a Basis, as documented, every non-zero vector leads to AttributeError (C85_always_fails). With a Configuration the values are right (C85_values_partial) but the names belong to s(s+1) in place of s: right only for spin 0 and above 2 (C85_names).
* **C86** False for all inputs: the arguments of modified_davidson_algorithm are shifted by one, so every value drawn is 0 (C86_all_zero, C86_draws_zero) or the function ends with TypeError (C86_low_states_fail). The couplings of the points are the subject of C108.
* **C89** violated: with an initial guess json.dumps raises TypeError after the file was opened, both functions leave an empty file that load_data cannot read, whatever it contained before (C89_guess_empties_file). Exact condition: C89_saved_iff.
* **C90** violated for all other switches: the embeddings load an older file or raise FileNotFoundError (C90_other_switches). Exact condition: C90_found_iff.
* **C94** the claim is false for lattices of several rows: get_probability_spin_rectangular_lattice puts the top row first, interp2d draws the first row at the bottom; C94_simple_partial: non-degenerate states are drawn right, by the mirror symmetry (C98). Exact condition for normalised states: every site is at its place if and only if the probabilities are mirror symmetric (C94_right_iff).
* **C95** the claim is false: bool_interactions.bV_embedding does not exist
* **C96** the claim is false for every sector with a down spin. Exact condition for normalised states: no down spin (C96_right_iff).
* **C97** false exactly for the numbers of electrons that violate DistinctNames, the first is 11; the name does not depend on the switches Exact condition: C97_names_iff.
* **C103** true when every curve starts as a doublet or quartet with degeneracy 1 or 2 and all requested states exist; otherwise nothing is saved (colour or style unbound, or empty curve): proved, and shown to happen in every polarised sector whose number of electrons is neither 1 nor 3 Exact condition: C103_saved_iff.
* **C108** False in general: the code multiplies J by the index of the point instead of its coordinate. C108_rows: the hopping is right only where iY (nbT + 4) = 5 (nbT - 1), C108_columns: the repulsion is right only in the first column or with sixteen columns, C108_wrong_rows: the rows are even drawn in the opposite order (t = 0 is drawn at -5).
* **C113** Missing: false in general, see C113_always_overwritten, C113_overwritten and C113_too_many. Exact condition: C113_sectors_iff.
* **C114** Missing: false with the pictures of the holes (C114_stops) and for numbers of electrons that violate DistinctNames (C113_always_overwritten). The interpolation between the sites (scipy.interpolate.interp2d) and the drawing itself are not modelled. Exact condition for ending normally: C114_ends_iff.
* **C117** partial: the energy of the isolated block is never printed by main.py (negation and witness proved); everything else is proved
* **C126** partial because the code divides by zero for guesses made of determinants; missing: starts above a diagonal element
* **C127** Holds with at most one hole and on rows (partial theorems); fails on rectangles with two holes and two like spins (C127_fails, C127_energies_differ, C127_energy_too_low).
* **C128** Partial because the code violates the claim: it raises for nb_v different from nb_t, for the two lowest states and for a missing directory (C128_ends_iff), and it changes its argument (C128_data_changed, C128_stale).
* **C129** Partial because the code violates the claim: the bars are sorted apart from each other (C129_order_lost), all kinds of embedding have the same file name (C129_overwritten), and generate_plots needs an embedding of every sector (C129_all_sectors). C129_compares_iff: with at most 30 determinants the bars at each place belong to one determinant exactly if no determinant with the smaller isolated modulus has the larger embedded modulus.
* **C130** Partial because the code violates the full claim: with an initial guess in the Data object the run raises TypeError and leaves an unreadable file (C130_guess_fails), with other switches the saved results are not found (C130_other_switches, C130_no_file), and dynamical effects next to reversed blocks with unequal numbers of up and down spins and at least one hole always raise an exception (C139_files).
* **C132** The full claim is false: save_phase_space changes nalpha and nbeta but not nb_conf, so compute_S2 raises IndexError for every vector unless all spins were parallel at the start (C132_after_sweep_partial gives both cases, C132_stale_index_error the reason). C132_new ties the operators on objects to those of the model. C132_works_iff: the exact condition.
* **C140** Partial because the code violates the full claim: C140_fixed (any orthonormal eigenvectors as start), C140_misses (every matrix with enough eigenvectors above the lowest one), C140_static (determinants of a static Hamiltonian). Proved: C140_contains_partial, C140_gap, C140_first_value. Exact condition: C140_lowest_iff (the last search space contains orthonormal eigenvectors of the lowest eigenvalues; the returned states are then eigenvectors).
* **C141** Partial because the code violates the full claim: in a subspace of fewer than 2 nb_val dimensions the second search space leaves it (C141_leaves). Proved: kept as long as no dependent columns are orthonormalised (C141_kept_partial); always for one state and a constant diagonal, in particular on rectangles without static terms (C141_one_state, C141_lattice, C141_reversal); energies of other parity are missed (C141_energies).
* **C142** Proved: kept if the lowest states converge first, and the exact condition when at most one converged vector stands behind the first nc positions. The claim is false otherwise (C142_lost) and for nb_val above the dimension (C142_repeats).
* **C143** false without the directory of the lattice, for states at the first ratio other than doublets and quartets with degeneracy 1 or 2, and for numbers of electrons that violate DistinctNames (first 11). Exact conditions: C143_iff, C143_names_iff.
* **C144** false for the single states of a degenerate level (C144_not_determined); proved for the sums over the level. Exact condition for single states: C144_determined_iff.

