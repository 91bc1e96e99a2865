/-
Model of /repo/latticeFunctions.py (except `get_diagonal_second_neighbors`, which
depends on baseConstruction.py and is in `Verif/Model/Base.lean`).
-/
import Verif.Model.Py

namespace TJ

/-- latticeFunctions.py 11-22, `compute_dimension`. -/
def computeDimension (nsites nalpha nbeta : Int) : Nat :=
  let nholes := nsites - nalpha - nbeta
  pyComb nsites nholes * pyComb (nsites - nholes) nalpha

/-- latticeFunctions.py 38-46, `build_J_matrix`. (`range(dim - 1)` is empty for `dim = 0`,
as is `List.replicate (dim - 1)` with natural subtraction.) -/
def buildJMatrix (dim : Nat) : Py NdMat :=
  NdMat.add (NdMat.diagUp (List.replicate (dim - 1) 1)) (NdMat.diagDown (List.replicate (dim - 1) 1))

/-- latticeFunctions.py 76-90, `build_U_matrix`. The column index is a natural number
because `nbh * nblocs_side ≥ 1` whenever the loop body runs on a non-empty matrix; for
`nbh * nblocs_side = 0` Python would use index `-1` on an empty axis and raise, the model
raises too. -/
def buildUMatrix (nbh nbv nblocs : Nat) : Py NdMat :=
  let dim := nbh * nbv * (nblocs ^ 2)
  (List.range (nbv * nblocs)).foldlM
    (fun U i => U.setEntry (i * nbh * nblocs) ((i + 1) * nbh * nblocs - 1) 1)
    (NdMat.zeros dim dim)

/-- latticeFunctions.py 91-113, `build_T_matrix`. Natural subtraction is used for
`nbv * nblocs_side - 1`, `nbh * nblocs_side - 1 - ind_col` etc.; the subtrahend is always
smaller when `nbh, nbv, nblocs_side ≥ 1` (the only case the theorems speak about). -/
def buildTMatrix (nbh nbv nblocs : Nat) : Py NdMat := do
  let T ← NdMat.concat0 (NdMat.eye (nbh * nblocs))
    (NdMat.zeros ((nbv * nblocs - 1) * nbh * nblocs) (nbh * nblocs))
  let col ← (List.range (nbv * nblocs)).foldlM
    (fun (col : NdMat) k => col.setEntry ((k + 1) * nbh * nblocs - 1) k 1)
    (NdMat.zeros (nbh * nbv * (nblocs ^ 2)) (nbv * nblocs))
  let T ← NdMat.concat1 T col
  let invId ← (List.range (nbh * nblocs)).foldlM
    (fun (m : NdMat) k => m.setEntry (nbh * nblocs - 1 - k) k 1)
    (NdMat.zeros (nbh * nblocs) (nbh * nblocs))
  let col ← NdMat.concat0 (NdMat.zeros ((nbv * nblocs - 1) * nbh * nblocs) (nbh * nblocs)) invId
  let T ← NdMat.concat1 T col
  let col ← (List.range (nbv * nblocs)).foldlM
    (fun (col : NdMat) k => col.setEntry ((nbv * nblocs - k - 1) * nbh * nblocs) k 1)
    (NdMat.zeros (nbh * nbv * (nblocs ^ 2)) (nbv * nblocs))
  NdMat.concat1 T col

/-- latticeFunctions.py 115-137, `build_rectangular_bond_matrix`. -/
def buildRectangularBondMatrix (nbh nbv nblocs : Nat) : Py NdMat := do
  let nsites := nbh * nbv * (nblocs ^ 2)
  let J ← buildJMatrix (nblocs * nbh)
  let m ← (List.range (nblocs * nbv)).foldlM
    (fun (m : NdMat) iB =>
      m.setBlock (nblocs * nbh * iB) (nblocs * nbh * (iB + 1))
        (nblocs * nbh * iB) (nblocs * nbh * (iB + 1)) J)
    (NdMat.zeros nsites nsites)
  (List.range (nblocs * nbv - 1)).foldlM
    (fun (m : NdMat) jB => do
      let m ← m.setBlock (nblocs * nbh * (jB + 1)) (nblocs * nbh * (jB + 2))
        (nblocs * nbh * jB) (nblocs * nbh * (jB + 1)) (NdMat.eye (nblocs * nbh))
      m.setBlock (nblocs * nbh * jB) (nblocs * nbh * (jB + 1))
        (nblocs * nbh * (jB + 1)) (nblocs * nbh * (jB + 2)) (NdMat.eye (nblocs * nbh)))
    m

/-- latticeFunctions.py 139-162, `build_bond_matrix_neel_outer_lattice`. -/
def buildBondMatrixNeelOuterLattice (nbh nbv nblocs : Nat) : Py NdMat := do
  let Jh ← buildJMatrix (nbh * nblocs)
  let Jv ← buildJMatrix (nbv * nblocs)
  let rest ← NdMat.concat0 Jh (NdMat.zeros ((nbh + 2 * nbv) * nblocs) (nbh * nblocs))
  let col ← NdMat.concat0 (NdMat.zeros (nbh * nblocs) (nbv * nblocs)) Jv
  let col ← NdMat.concat0 col (NdMat.zeros ((nbh + nbv) * nblocs) (nbv * nblocs))
  let rest ← NdMat.concat1 rest col
  let col ← NdMat.concat0 (NdMat.zeros ((nbh + nbv) * nblocs) (nbh * nblocs)) Jh
  let col ← NdMat.concat0 col (NdMat.zeros (nbv * nblocs) (nbh * nblocs))
  let rest ← NdMat.concat1 rest col
  let col ← NdMat.concat0 (NdMat.zeros ((2 * nbh + nbv) * nblocs) (nbv * nblocs)) Jv
  NdMat.concat1 rest col

/-- latticeFunctions.py 164-193, `build_bond_matrix_neel_embedding`. -/
def buildBondMatrixNeelEmbedding (nbh nbv nblocs : Nat) : Py NdMat := do
  let bond ← buildRectangularBondMatrix nbh nbv nblocs
  let rest ← buildBondMatrixNeelOuterLattice nbh nbv nblocs
  let connexion ← buildTMatrix nbh nbv nblocs
  let left ← NdMat.concat0 bond connexion.transpose
  let right ← NdMat.concat0 connexion rest
  NdMat.concat1 left right

/-- latticeFunctions.py 195-218, `build_bond_matrix_block_embedding`. -/
def buildBondMatrixBlockEmbedding (nbh nbv nblocs : Nat) : Py NdMat := do
  let bond ← buildRectangularBondMatrix nbh nbv nblocs
  let connection ← buildUMatrix nbh nbv nblocs
  let row0 ← NdMat.concat1 bond connection.transpose
  let row1 ← NdMat.concat1 connection bond
  NdMat.concat0 row0 row1

/-- The `sites_restriction` argument of the neighbour functions and of `Configuration`:
a list (empty = no restriction) or a pair of lists. -/
inductive RestrArg where
  | list (l : List Nat)
  | pair (a b : List Nat)
  deriving DecidableEq, Repr

/-- latticeFunctions.py 224-243, `build_bond_list`; only called with a pair or without
restriction. A one-dimensional non-empty list restriction would make `set(l[0])` raise
`TypeError`. -/
def buildBondList (S : SetSem) (bond : NdMat) (restr : RestrArg) : Py (List (Nat × Nat)) :=
  let nsites := bond.rows
  let go := fun (r0 r1 : List Nat) =>
    (S.inter (List.range nsites) r0).flatMap (fun i =>
      (S.inter (List.range' i (nsites - i)) r1).filterMap (fun j =>
        if bond.e i j = 1 then some (i, j) else none))
  match restr with
  | .list [] => .ok (go (List.range nsites) (List.range nsites))
  | .list (_ :: _) => .error .typeError
  | .pair a b => .ok (go a b)

/-- latticeFunctions.py 245-266, `get_neighbors`. `bond_matrix[n_site,:]` raises
`IndexError` for `n_site ≥ nsites`. The matrix is square in all calls. -/
def getNeighbors (S : SetSem) (n : Nat) (bond : NdMat) (restr : RestrArg) : Py (List Nat) :=
  let nsites := bond.rows
  let r := match restr with
    | .list [] => List.range nsites
    | .list l => l
    | .pair _ b => b
  if n < nsites then
    .ok ((S.inter (List.range nsites) r).filter (fun ind => bond.e n ind = 1))
  else .error .indexError

/-- latticeFunctions.py 268-289, `get_second_neighbors`. -/
def getSecondNeighbors (S : SetSem) (n : Nat) (bond : NdMat) (restr : RestrArg) : Py (List Nat) := do
  let nsites := bond.rows
  let restr := match restr with
    | .list [] => RestrArg.pair (List.range nsites) (List.range nsites)
    | r => r
  let neighbors ← getNeighbors S n bond (.list [])
  let non2 := n :: neighbors
  let secs ← neighbors.mapM (fun neigh => do
    let nn ← getNeighbors S neigh bond restr
    return S.diff nn non2)
  return S.ofList secs.flatten

end TJ
