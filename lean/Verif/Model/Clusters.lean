/-
Model of the relabelling search of `is_bond_linear` for lattices of type 'clusters'
(/repo/baseConstruction.py 356-403). The eigenvectors returned by `np.linalg.eigh` and the
rounding `round(x, 10)` are parameters; numbers are elements of a field.
-/
import Verif.Model.Base
import Mathlib.Algebra.Field.Basic

namespace TJ

/-- baseConstruction.py 379, `tuple(product([1, -1], repeat=nsites))`. -/
def signVectors : Nat → List (List Int)
  | 0 => [[]]
  | n + 1 => [1, -1].flatMap (fun (s : Int) => (signVectors n).map (fun l => s :: l))

variable {K : Type} [Field K] [DecidableEq K]

/-- baseConstruction.py 383-384: the entry `[i, j]` of `transfer_matrix` for the diagonal
`s`; `W` are the columns `periodic_eigenvectors`, `U` the columns `clusters_eigenvectors`. -/
def transferMatrix (n : Nat) (W U : Nat → Nat → K) (s : List Int) (i j : Nat) : K :=
  ((List.range n).map (fun k => W i k * (((s.getD k 0 : Int) : K) * U j k))).sum

/-- baseConstruction.py 385-395: the upper left entry rounds to 1 and every entry rounds to
0 or 1. The code scans row by row and stops at the first other entry (`ind_row == nsites`
holds at the end when there is none). -/
def acceptedTransfer (rnd : K → K) (n : Nat) (T : Nat → Nat → K) : Bool :=
  decide (rnd (T 0 0) = 1) &&
    (List.range n).all (fun i => (List.range n).all (fun j => decide (rnd (T i j) = 0 ∨ rnd (T i j) = 1)))

/-- baseConstruction.py 380-399: the loop over the diagonals. The matrix left in
`transfer_matrix` is the first accepted one, and the last one tried when none is. -/
def transferSearch (rnd : K → K) (n : Nat) (W U : Nat → Nat → K) :
    List (List Int) → (Nat → Nat → K) → Nat → Nat → K
  | [], last => last
  | s :: rest, _ =>
    let T := transferMatrix n W U s
    if acceptedTransfer rnd n T then T else transferSearch rnd n W U rest T

/-- baseConstruction.py 356-400: the behaviour of the search for a given `eigh` (the columns of
`eigh A` are the eigenvectors of `A`) and a given rounding. -/
def clusterEnv (S : SetSem) (rnd : K → K) (eigh : NdMat → Nat → Nat → K) : Env :=
  { S with
    transferIsOne := fun C P row s =>
      decide (rnd (transferSearch rnd C.rows (eigh P) (eigh C) (signVectors C.rows) (fun _ _ => 0) row s) = 1) }

end TJ
