/-
The expected values written in /repo/tests, compared with the model. These are tests of the model on literals, not proofs of
properties: they show that the definitions of `Verif/Model` return what the authors of the code expect of their functions.
Sets are iterated in increasing order (`exEnv`). The tests left out are `test_index_in_basis` on the 3×3 lattice, `test_hash_basis`
and `test_basis_flip_953`, which hold for every lattice by C04, C05 and C10 and take the kernel minutes to evaluate; the two that
compare with an eigensolver on random matrices; the hermiticity and the rotation tests, which are instances of C32 and
C34; and those whose coefficients are irrational (`test_probability_spin_lattice`, `test_most_dominant_determinants`).
-/
import Verif.Props.Linear
import Verif.Model.Spin
import Verif.Model.Davidson
import Verif.Model.Observables

namespace TJ.RepoTests

/-- The configuration of a call `Configuration(bond_matrix, nholes, nbeta, restriction, type, nbh, nbv, nblocs)`. -/
def conf (bond : Py NdMat) (nholes nbeta : Nat) (restr : RestrArg) (ltype : LatticeType) (nbh nbv nb : Nat) : Py Config := do
  Config.init (← bond) nholes nbeta restr ltype nbh nbv nb

/-- A value computed from a configuration. -/
def on {α : Type} (c : Py Config) (f : Config → Py α) : Py α := c >>= f

/-- The 3×3 lattice of the tests. -/
def nine (nholes nbeta : Nat) : Py Config := conf (buildRectangularBondMatrix 1 1 3) nholes nbeta (.list []) .periodic 1 1 3
/-- The 6×3 lattice of the tests. -/
def eighteen (nholes nbeta : Nat) : Py Config := conf (buildRectangularBondMatrix 2 1 3) nholes nbeta (.list []) .periodic 2 1 3
/-- The 2×2 lattice of the tests. -/
def four (nholes nbeta : Nat) : Py Config := conf (buildRectangularBondMatrix 1 1 2) nholes nbeta (.list []) .periodic 1 1 2
/-- The bordered 3×3 lattice of the tests. -/
def bordered (nholes nbeta : Nat) : Py Config := conf (buildBondMatrixNeelEmbedding 1 1 3) nholes nbeta (.list []) .peripheral 1 1 3
/-- Two 3×3 blocks; `nbh` is 2 in most of the tests and 1 in `test_hopping_integral`. -/
def blocks (nholes nbeta : Nat) (nbh : Nat := 2) : Py Config := conf (buildBondMatrixBlockEmbedding 1 1 3) nholes nbeta (.list []) .clusters nbh 1 3

/-- The relabelling of two 3×3 blocks, numbered block by block, to the row-by-row numbering of the 6×3 lattice. -/
def blocksEnv : Env := { SetSem.sorted with transferIsOne := fun _ _ row s => row = 6 * (s % 9 / 3) + 3 * (s / 9) + s % 3 }

/-- `sorted`. -/
def srt (l : Py (List Nat)) : Py (List Nat) := l.map (fun l => l.insertionSort (· ≤ ·))

/-- `assertEqual(len(images), len(expected))` and `assertIn(image, expected)` for every image. -/
def sameImages (images expected : List (List Nat)) : Bool := images.length = expected.length ∧ ∀ i ∈ images, i ∈ expected

/-- The couplings of the tests. -/
def couplings : Interactions ℚ := ⟨-55 / 100, 123 / 1000, 156 / 1000, 104 / 1000, -8 / 100, -41 / 1000, 112 / 1000, -47 / 1000, 177 / 100, 79 / 100⟩

/-! ### tests/test_lattice_functions.py -/

/-- `test_neighbors_block_9`. -/
example : ∀ p ∈ [(0, [1, 3]), (1, [0, 2, 4]), (2, [1, 5]), (3, [0, 4, 6]), (4, [1, 3, 5, 7]), (5, [2, 4, 8]), (6, [3, 7]), (7, [4, 6, 8]), (8, [5, 7])],
    srt (buildRectangularBondMatrix 1 1 3 >>= fun m => getNeighbors SetSem.sorted p.1 m (.list [])) = .ok p.2 := by decide +kernel

/-- `test_neighbors_block_9_sites_restriction`. -/
example : ∀ p ∈ [(0, [1, 3]), (1, [0, 2, 4]), (2, [1]), (3, [0, 4]), (4, [1, 3]), (5, [2, 4]), (6, [3]), (7, [4]), (8, [])],
    srt (buildRectangularBondMatrix 1 1 3 >>= fun m => getNeighbors SetSem.sorted p.1 m (.list [0, 1, 2, 3, 4])) = .ok p.2 := by decide +kernel

/-- `test_neighbors_block_9_embedded`. -/
example : (∀ p ∈ [(0, [1, 3, 9, 20]), (4, [1, 3, 5, 7]), (5, [2, 4, 8, 13]), (12, [2, 13]), (16, [7, 15, 17])],
      srt (buildBondMatrixNeelEmbedding 1 1 3 >>= fun m => getNeighbors SetSem.sorted p.1 m (.list [])) = .ok p.2) ∧
    ∀ p ∈ [(0, [1, 3]), (2, [1, 5, 9]), (4, [1, 3, 5, 7]), (5, [2, 4, 8, 12]), (9, [2, 10, 12]), (13, [10, 12, 14, 16]), (15, [8, 12, 16]), (17, [14, 16])],
      srt (buildBondMatrixBlockEmbedding 1 1 3 >>= fun m => getNeighbors SetSem.sorted p.1 m (.list [])) = .ok p.2 := by
  constructor <;> decide +kernel

/-- `test_second_neighbors_block_9`. -/
example : ∀ p ∈ [(0, [2, 4, 6]), (1, [3, 5, 7]), (2, [0, 4, 8]), (3, [1, 5, 7]), (4, [0, 2, 6, 8]), (5, [1, 3, 7]), (6, [0, 4, 8]), (7, [1, 3, 5]), (8, [2, 4, 6])],
    srt (buildRectangularBondMatrix 1 1 3 >>= fun m => getSecondNeighbors SetSem.sorted p.1 m (.list [])) = .ok p.2 := by decide +kernel

/-- `test_diagonal_second_neighbors_block_9`. -/
example : (∀ p ∈ [(0, [4]), (1, [3, 5]), (2, [4]), (3, [1, 7]), (4, [0, 2, 6, 8]), (5, [1, 7]), (6, [4]), (7, [3, 5]), (8, [4])],
      srt (on (nine 0 0) fun c => getDiagonalSecondNeighbors exEnv c p.1) = .ok p.2) ∧
    (∀ p ∈ [(0, [4, 10, 19]), (4, [0, 2, 6, 8]), (13, [2, 8]), (15, [7, 14])],
      srt (on (bordered 0 0) fun c => getDiagonalSecondNeighbors exEnv c p.1) = .ok p.2) ∧
    ∀ p ∈ [(4, [0, 2, 6, 8]), (2, [4, 12]), (12, [2, 8, 10, 16]), (15, [5, 13]), (17, [13])],
      srt (on (blocks 0 0) fun c => getDiagonalSecondNeighbors blocksEnv c p.1) = .ok p.2 := by
  refine ⟨?_, ?_, ?_⟩ <;> decide +kernel

/-- `test_diagonal_second_neighbors_block_9_sites_restriction`. -/
example : ∀ p ∈ [(0, []), (1, [3, 5]), (2, []), (3, [1, 7]), (4, [2, 6, 8]), (5, [1, 7]), (6, []), (7, [3, 5]), (8, [])],
    srt (on (conf (buildRectangularBondMatrix 1 1 3) 0 0 (.list [1, 2, 3, 5, 6, 7, 8]) .periodic 1 1 3) fun c => getDiagonalSecondNeighbors exEnv c p.1) =
      .ok p.2 := by decide +kernel

/-! ### tests/test_base_construction.py -/

/-- `test_reorder_basis_element`. -/
example : (on (eighteen 2 8) fun c => .ok (reorder c [5, 1, 6, 0, 4, 12, 17, 9, 2, 8, 15, 14, 3, 16, 13, 7, 10, 11])) =
    .ok [1, 5, 0, 2, 4, 6, 8, 9, 12, 17, 3, 7, 10, 11, 13, 14, 15, 16] := by decide +kernel

/-- `test_index_in_basis`, the 2×2 lattice. -/
example : (on (four 1 1) fun c => do return (← constructBasis c).map (getIndexInBasis c)) = .ok (List.range 12) := by decide +kernel

/-- `test_extend_determinant`. -/
example : (on (nine 1 3) fun c1 => on (nine 1 5) fun c2 => extendDeterminant SetSem.sorted c1 c2 [4, 0, 2, 6, 1, 3, 5, 7, 8] [3, 1, 4, 5, 6, 8, 0, 2, 7]) =
    .ok [4, 12, 0, 2, 6, 10, 13, 14, 15, 17, 1, 3, 5, 7, 8, 9, 11, 16] := by decide +kernel

/-- `test_reverse_spins`. -/
example : (on (nine 1 3) fun c => (reverseSpins SetSem.sorted c [4, 1, 3, 5, 0, 2, 6, 7, 8]).map (·.2)) = .ok [4, 0, 2, 6, 7, 8, 1, 3, 5] := by decide +kernel

/-- `test_reverse_spins_vect`. -/
example : (on (four 1 1) fun c => do reverseSpinsVect SetSem.sorted c (← constructBasis c) ([1, 0, 0, 0, 1, 0, 1, 1, 0, 0, 0, 1] : List ℤ)) =
    .ok [0, 0, 1, 0, 1, 0, 0, 1, 1, 1, 0, 0] := by decide +kernel

/-- `test_spin_site`. -/
example : (on (nine 1 4) fun c => (List.range 9).mapM (fun s => do return (← getSpinSite c [4, 1, 3, 5, 8, 0, 2, 6, 7] s).twice)) =
    .ok [1, -1, 1, -1, 0, -1, 1, 1, -1] := by decide +kernel

/-- `test_bond_linear`, row-by-row numbering. -/
example : ∀ p ∈ [((0, 1, 2), .ok true), ((0, 2, 1), .ok true), ((0, 1, 6), .ok false), ((0, 1, 3), .error .valueError), ((0, 1, 7), .ok false),
      ((17, 11, 5), .ok true), ((8, 7, 6), (.ok true : Py Bool))],
    (on (eighteen 2 8) fun c => isBondLinear exEnv c p.1.1 p.1.2.1 p.1.2.2) = p.2 := by decide +kernel

/-- `test_bond_linear`, lattice with a border. -/
example : ∀ p ∈ [((0, 1, 2), .ok true), ((0, 2, 1), .ok true), ((1, 2, 12), .ok true), ((9, 0, 1), .ok false), ((9, 0, 3), .ok true), ((14, 8, 7), .ok true),
      ((19, 3, 6), .ok false), ((4, 7, 16), .ok true), ((12, 13, 14), .ok true), ((13, 14, 15), .error .valueError), ((11, 2, 12), .ok false),
      ((16, 7, 6), (.ok false : Py Bool))],
    (on (bordered 1 12) fun c => isBondLinear exEnv c p.1.1 p.1.2.1 p.1.2.2) = p.2 := by decide +kernel

/-- `test_bond_linear`, two blocks. -/
example : ∀ p ∈ [((0, 1, 2), .ok true), ((0, 2, 1), .ok true), ((4, 5, 12), .ok true), ((2, 9, 10), .ok true), ((2, 9, 12), .ok false),
      ((7, 8, 12), .error .valueError), ((1, 2, 10), (.error .valueError : Py Bool))],
    (on (blocks 2 8) fun c => isBondLinear blocksEnv c p.1.1 p.1.2.1 p.1.2.2) = p.2 := by decide +kernel

/-- `test_rotate_determinant`. -/
example : ∀ p ∈ [(0, [0, 2, 4, 6, 7, 1, 3, 5, 8]), (1, [6, 0, 4, 5, 8, 1, 2, 3, 7]), (2, [8, 1, 2, 4, 6, 0, 3, 5, 7]), (3, [2, 0, 3, 4, 8, 1, 5, 6, 7])],
    (on (nine 1 4) fun c => .ok (rotateDeterminant p.1 c [0, 2, 4, 6, 7, 1, 3, 5, 8])) = .ok p.2 := by decide +kernel

/-! ### tests/test_interactions.py -/

/-- `test_hopping_integral`. -/
example : (on (nine 1 4) fun c => do return (sameImages (← computeHopping SetSem.sorted c [4, 1, 3, 6, 8, 0, 2, 5, 7])
      [[1, 3, 4, 6, 8, 0, 2, 5, 7], [3, 1, 4, 6, 8, 0, 2, 5, 7], [5, 1, 3, 6, 8, 0, 2, 4, 7], [7, 1, 3, 6, 8, 0, 2, 4, 5]])) = .ok true := by decide +kernel

/-- `test_hopping_integral`, lattice with a border. -/
example : (on (bordered 2 12) fun c => do
      return (sameImages (← computeHopping SetSem.sorted c [6, 13, 1, 3, 5, 7, 9, 11, 12, 14, 15, 17, 18, 20, 0, 2, 4, 8, 10, 16, 19])
      [[3, 13, 1, 5, 6, 7, 9, 11, 12, 14, 15, 17, 18, 20, 0, 2, 4, 8, 10, 16, 19],
       [7, 13, 1, 3, 5, 6, 9, 11, 12, 14, 15, 17, 18, 20, 0, 2, 4, 8, 10, 16, 19],
       [13, 17, 1, 3, 5, 6, 7, 9, 11, 12, 14, 15, 18, 20, 0, 2, 4, 8, 10, 16, 19],
       [13, 18, 1, 3, 5, 6, 7, 9, 11, 12, 14, 15, 17, 20, 0, 2, 4, 8, 10, 16, 19],
       [5, 6, 1, 3, 7, 9, 11, 12, 13, 14, 15, 17, 18, 20, 0, 2, 4, 8, 10, 16, 19],
       [6, 12, 1, 3, 5, 7, 9, 11, 13, 14, 15, 17, 18, 20, 0, 2, 4, 8, 10, 16, 19],
       [6, 14, 1, 3, 5, 7, 9, 11, 12, 13, 15, 17, 18, 20, 0, 2, 4, 8, 10, 16, 19]])) = .ok true := by decide +kernel

/-- `test_hopping_integral`, two blocks. -/
example : (on (blocks 4 6 1) fun c => do
      return (sameImages (← computeHopping SetSem.sorted c [5, 8, 9, 15, 1, 3, 7, 11, 13, 17, 0, 2, 4, 6, 10, 12, 14, 16])
      [[8, 9, 12, 15, 1, 3, 7, 11, 13, 17, 0, 2, 4, 5, 6, 10, 14, 16], [2, 8, 9, 15, 1, 3, 7, 11, 13, 17, 0, 4, 5, 6, 10, 12, 14, 16],
       [4, 8, 9, 15, 1, 3, 7, 11, 13, 17, 0, 2, 5, 6, 10, 12, 14, 16], [5, 7, 9, 15, 1, 3, 8, 11, 13, 17, 0, 2, 4, 6, 10, 12, 14, 16],
       [2, 5, 8, 15, 1, 3, 7, 11, 13, 17, 0, 4, 6, 9, 10, 12, 14, 16], [5, 8, 10, 15, 1, 3, 7, 11, 13, 17, 0, 2, 4, 6, 9, 12, 14, 16],
       [5, 8, 12, 15, 1, 3, 7, 11, 13, 17, 0, 2, 4, 6, 9, 10, 14, 16], [5, 8, 9, 12, 1, 3, 7, 11, 13, 17, 0, 2, 4, 6, 10, 14, 15, 16],
       [5, 8, 9, 16, 1, 3, 7, 11, 13, 17, 0, 2, 4, 6, 10, 12, 14, 15]])) = .ok true := by decide +kernel

/-- `test_next_neighbor_hopping_integral`. -/
example : (on (nine 1 4) fun c => do
      let r ← computeNextHopping exEnv c [8, 1, 3, 4, 6, 0, 2, 5, 7]
      return (sameImages r.1 [[2, 1, 3, 4, 6, 0, 5, 7, 8], [6, 1, 3, 4, 8, 0, 2, 5, 7]], sameImages r.2 [[4, 1, 3, 6, 8, 0, 2, 5, 7]])) =
    .ok (true, true) := by decide +kernel

/-- `test_next_neighbor_hopping_integral`, lattice with a border. -/
example : (on (bordered 1 9) fun c => do
      let r ← computeNextHopping exEnv c [1, 0, 2, 4, 6, 8, 10, 13, 16, 19, 3, 5, 7, 9, 11, 12, 14, 15, 17, 18, 20]
      return (sameImages r.1
        [[7, 0, 2, 4, 6, 8, 10, 13, 16, 19, 1, 3, 5, 9, 11, 12, 14, 15, 17, 18, 20],
         [12, 0, 2, 4, 6, 8, 10, 13, 16, 19, 1, 3, 5, 7, 9, 11, 14, 15, 17, 18, 20],
         [20, 0, 2, 4, 6, 8, 10, 13, 16, 19, 1, 3, 5, 7, 9, 11, 12, 14, 15, 17, 18]], sameImages r.2
        [[5, 0, 2, 4, 6, 8, 10, 13, 16, 19, 1, 3, 7, 9, 11, 12, 14, 15, 17, 18, 20],
         [3, 0, 2, 4, 6, 8, 10, 13, 16, 19, 1, 5, 7, 9, 11, 12, 14, 15, 17, 18, 20],
         [9, 0, 2, 4, 6, 8, 10, 13, 16, 19, 1, 3, 5, 7, 11, 12, 14, 15, 17, 18, 20],
         [11, 0, 2, 4, 6, 8, 10, 13, 16, 19, 1, 3, 5, 7, 9, 12, 14, 15, 17, 18, 20]])) = .ok (true, true) := by decide +kernel

/-- `test_next_neighbor_hopping_integral`, two blocks. -/
example : (on (blocks 2 8) fun c => do
      let r ← computeNextHopping blocksEnv c [2, 10, 1, 3, 5, 7, 9, 11, 13, 17, 0, 4, 6, 8, 12, 14, 15, 16]
      return (sameImages r.1
        [[0, 10, 1, 3, 5, 7, 9, 11, 13, 17, 2, 4, 6, 8, 12, 14, 15, 16],
         [8, 10, 1, 3, 5, 7, 9, 11, 13, 17, 0, 2, 4, 6, 12, 14, 15, 16],
         [2, 16, 1, 3, 5, 7, 9, 11, 13, 17, 0, 4, 6, 8, 10, 12, 14, 15]], sameImages r.2
        [[4, 10, 1, 3, 5, 7, 9, 11, 13, 17, 0, 2, 6, 8, 12, 14, 15, 16],
         [10, 12, 1, 3, 5, 7, 9, 11, 13, 17, 0, 2, 4, 6, 8, 14, 15, 16],
         [2, 12, 1, 3, 5, 7, 9, 11, 13, 17, 0, 4, 6, 8, 10, 14, 15, 16],
         [2, 14, 1, 3, 5, 7, 9, 11, 13, 17, 0, 4, 6, 8, 10, 12, 15, 16]])) = .ok (true, true) := by decide +kernel

/-- `test_static_spin_interaction`. -/
example : (on (eighteen 3 6) fun c => computeStatic exEnv c couplings [4, 7, 14, 2, 5, 6, 9, 12, 17, 0, 1, 3, 8, 10, 11, 13, 15, 16]) =
    .ok (-couplings.J - 2 * couplings.Jhpar - 3 * couplings.Jhper) := by decide +kernel

/-- `test_spin_flip`. -/
example : (on (eighteen 2 8) fun c => do
      let r ← computeFlip SetSem.sorted c [7, 10, 0, 3, 4, 9, 11, 15, 16, 17, 1, 2, 5, 6, 8, 12, 13, 14]
      return (sameImages r.1 [[7, 10, 0, 3, 4, 8, 11, 15, 16, 17, 1, 2, 5, 6, 9, 12, 13, 14]], sameImages r.2.1
        [[7, 10, 1, 3, 4, 9, 11, 15, 16, 17, 0, 2, 5, 6, 8, 12, 13, 14], [7, 10, 3, 4, 6, 9, 11, 15, 16, 17, 0, 1, 2, 5, 8, 12, 13, 14],
         [7, 10, 0, 3, 5, 9, 11, 15, 16, 17, 1, 2, 4, 6, 8, 12, 13, 14], [7, 10, 0, 3, 4, 5, 9, 15, 16, 17, 1, 2, 6, 8, 11, 12, 13, 14]],
        sameImages r.2.2
        [[7, 10, 0, 2, 4, 9, 11, 15, 16, 17, 1, 3, 5, 6, 8, 12, 13, 14], [7, 10, 0, 3, 4, 9, 11, 14, 16, 17, 1, 2, 5, 6, 8, 12, 13, 15]])) =
    .ok (true, true, true) := by decide +kernel

/-- `test_singlet_displacement`. -/
example : (on (blocks 2 8) fun c => do
      let r ← computeSD blocksEnv c [4, 15, 3, 6, 7, 8, 10, 11, 12, 14, 0, 1, 2, 5, 9, 13, 16, 17]
      return (r.1.all (fun p => p.1 ∈ [[12, 15, 3, 4, 6, 7, 8, 10, 11, 14, 0, 1, 2, 5, 9, 13, 16, 17], [12, 15, 3, 5, 6, 7, 8, 10, 11, 14, 0, 1, 2, 4, 9, 13, 16, 17],
            [4, 9, 3, 6, 7, 8, 10, 11, 12, 14, 0, 1, 2, 5, 13, 15, 16, 17], [4, 9, 3, 6, 7, 8, 10, 11, 14, 15, 0, 1, 2, 5, 12, 13, 16, 17]] ∧
          p.2 ∈ [[12, 15, 3, 4, 6, 7, 8, 10, 11, 14, 0, 1, 2, 5, 9, 13, 16, 17], [12, 15, 3, 5, 6, 7, 8, 10, 11, 14, 0, 1, 2, 4, 9, 13, 16, 17],
            [4, 9, 3, 6, 7, 8, 10, 11, 12, 14, 0, 1, 2, 5, 13, 15, 16, 17], [4, 9, 3, 6, 7, 8, 10, 11, 14, 15, 0, 1, 2, 5, 12, 13, 16, 17]]),
        (r.2.flatMap (fun p => [p.1, p.2])).all (fun d => d ∈
          [[0, 15, 3, 6, 7, 8, 10, 11, 12, 14, 1, 2, 4, 5, 9, 13, 16, 17], [0, 15, 4, 6, 7, 8, 10, 11, 12, 14, 1, 2, 3, 5, 9, 13, 16, 17],
           [8, 15, 3, 4, 6, 7, 10, 11, 12, 14, 0, 1, 2, 5, 9, 13, 16, 17], [8, 15, 3, 5, 6, 7, 10, 11, 12, 14, 0, 1, 2, 4, 9, 13, 16, 17],
           [4, 5, 3, 6, 7, 8, 10, 11, 12, 14, 0, 1, 2, 9, 13, 15, 16, 17], [4, 5, 3, 6, 7, 10, 11, 12, 14, 15, 0, 1, 2, 8, 9, 13, 16, 17],
           [4, 5, 3, 6, 7, 8, 10, 11, 12, 14, 0, 1, 2, 9, 13, 15, 16, 17], [4, 5, 3, 6, 7, 8, 10, 11, 14, 15, 0, 1, 2, 9, 12, 13, 16, 17],
           [4, 13, 3, 6, 7, 8, 10, 11, 12, 14, 0, 1, 2, 5, 9, 15, 16, 17], [4, 13, 3, 6, 7, 8, 10, 11, 14, 15, 0, 1, 2, 5, 9, 12, 16, 17]]))) =
    .ok (true, true) := by decide +kernel

/-- `test_hole_repulsion`. -/
example : (on (blocks 6 6) fun c => computeRepulsion blocksEnv c couplings [1, 4, 8, 9, 14, 15, 3, 5, 7, 10, 11, 16, 0, 2, 6, 12, 13, 17]) =
    .ok (2 * couplings.VNN + couplings.VNNNper) := by decide +kernel

/-- `test_spin_z_two_bodies`. -/
example : (on (four 1 1) fun c => computeSpinsZTwoBodies c ([0, 0, 0, 1, 0, 1, 0, 0, 0, 0, 1, 0] : List ℚ) 2 3) =
    .ok [0, 0, 0, 1 / 4, 0, -1 / 4, 0, 0, 0, 0, 0, 0] := by decide +kernel

/-- `test_S_plus_S_minus`. -/
example : (on (four 1 1) fun c => sPlusSMinus SetSem.sorted c ([0, 0, 0, 1, 0, 1, 0, 0, 0, 0, 1, 0] : List ℚ) 3 2) =
    .ok [0, 0, 0, 0, 1, 0, 0, 0, 0, 0, 0, 0] := by decide +kernel

/-- `test_S2`. -/
example : (on (four 1 1) fun c => computeS2 SetSem.sorted c ([0, 0, 0, 0, 0, 1, 0, 0, 0, 0, 0, 0] : List ℚ)) =
    .ok [0, 0, 0, 1, 1, 7 / 4, 0, 0, 0, 0, 0, 0] := by decide +kernel

/-- The vector of the 2×2 lattice with the given coefficients on the given determinants. -/
def vect (c : Config) (l : List (List Nat × ℚ)) : List ℚ := (List.range 12).map fun i => ((l.filter fun p => getIndexInBasis c p.1 = i).map (·.2)).sum

/-- `test_spin_number`: the quadruplets have `S² = 15/4`, that is spin number 4, and the doublets `S² = 3/4`, spin number 2. -/
example : (on (four 1 1) fun c => do
      let q0 := vect c [([0, 1, 2, 3], 1), ([0, 2, 1, 3], 1), ([0, 3, 1, 2], 1)]
      let q3 := vect c [([3, 1, 0, 2], 1), ([3, 2, 0, 1], 1), ([3, 0, 1, 2], 1)]
      let dss := vect c [([0, 1, 2, 3], 1), ([0, 2, 1, 3], -1), ([3, 1, 0, 2], 1), ([3, 2, 0, 1], -1)]
      let dsa := vect c [([0, 1, 2, 3], 1), ([0, 2, 1, 3], -1), ([3, 1, 0, 2], -1), ([3, 2, 0, 1], 1)]
      let das := vect c [([0, 1, 2, 3], 1), ([0, 2, 1, 3], 1), ([0, 3, 1, 2], -2), ([3, 1, 0, 2], 1), ([3, 2, 0, 1], 1), ([3, 0, 1, 2], -2)]
      let daa := vect c [([0, 1, 2, 3], 1), ([0, 2, 1, 3], 1), ([0, 3, 1, 2], -2), ([3, 1, 0, 2], -1), ([3, 2, 0, 1], -1), ([3, 0, 1, 2], 2)]
      [q0, q3, dss, dsa, das, daa].mapM (computeS2ExpVal SetSem.sorted c)) = .ok [15 / 4, 15 / 4, 3 / 4, 3 / 4, 3 / 4, 3 / 4] := by decide +kernel

/-! ### tests/test_hamiltonian_construction.py -/

/-- `test_build_hamiltonian`. -/
example : (on (four 1 1) fun c => do
      let h ← buildHamiltonian exEnv c couplings (← constructBasis c) ⟨true, true, true, true, true, true⟩
      return (List.range 12).map fun i => (List.range 12).map fun j => h.entry i j) = .ok
    (let t := couplings.t
     let Jhper := couplings.Jhper
     let tNNN := couplings.tNNN
     let hSDper := couplings.hSDper
     [[-Jhper / 2, 0, Jhper / 2, t, 0, 0, 0, t, 0, hSDper, tNNN - hSDper, 0],
      [0, -Jhper / 2, Jhper / 2, 0, t, 0, t, 0, 0, hSDper, 0, tNNN - hSDper],
      [Jhper / 2, Jhper / 2, -Jhper, 0, 0, t, 0, 0, t, tNNN - 2 * hSDper, hSDper, hSDper],
      [t, 0, 0, -Jhper / 2, Jhper / 2, 0, tNNN - hSDper, hSDper, 0, t, 0, 0],
      [0, t, 0, Jhper / 2, -Jhper, Jhper / 2, hSDper, tNNN - 2 * hSDper, hSDper, 0, 0, t],
      [0, 0, t, 0, Jhper / 2, -Jhper / 2, 0, hSDper, tNNN - hSDper, 0, t, 0],
      [0, t, 0, tNNN - hSDper, hSDper, 0, -Jhper / 2, Jhper / 2, 0, t, 0, 0],
      [t, 0, 0, hSDper, tNNN - 2 * hSDper, hSDper, Jhper / 2, -Jhper, Jhper / 2, 0, t, 0],
      [0, 0, t, 0, hSDper, tNNN - hSDper, 0, Jhper / 2, -Jhper / 2, 0, 0, t],
      [hSDper, hSDper, tNNN - 2 * hSDper, t, 0, 0, t, 0, 0, -Jhper, Jhper / 2, Jhper / 2],
      [tNNN - hSDper, 0, hSDper, 0, 0, t, 0, t, 0, Jhper / 2, -Jhper / 2, 0],
      [0, tNNN - hSDper, hSDper, 0, t, 0, 0, 0, t, Jhper / 2, 0, -Jhper / 2]]) := by decide +kernel

/-! ### tests/test_davidson.py -/

/-- `test_lowests_eigs`; the eigenvectors are the columns of the identity, named by their index. -/
example : getLowestsEig ([10, 3, 0, 0, 5, 7, 9, 1, 2, 7, -5, -1] : List ℚ) (List.range 12) 11 =
    .ok ([-5, -1, 0, 0, 1, 2, 3, 5, 7, 7, 9], [10, 11, 2, 3, 7, 8, 1, 4, 5, 9, 6]) := by decide +kernel

end TJ.RepoTests
