/-
Model of the compressed rows of scipy in which the Hamiltonian is kept (hamiltonianConstruction.py 75-77), multiplied
(davidson.py 260), read (davidson.py 281), saved (initialComputations.py 186-190) and restored (initialComputations.py 233-234, `csrMatrix` in `Model/IO.lean`).
-/
import Verif.Model.IO
import Verif.Model.Embedding

namespace TJ

variable {K : Type}

/-- hamiltonianConstruction.py 77, first step of `tocsr` (`coo_tocsr`): the columns and values of row `i`, in the order of the triples. -/
def rowEntries (l : Coo K) (i : Nat) : List (Nat × K) := (l.filter (fun p => p.2.1 = i)).map (fun p => (p.2.2, p.1))

/-- hamiltonianConstruction.py 77, inner loop of `sum_duplicates`: `x` collects the values of column `j`. -/
def sumRun [Add K] (j : Nat) (x : K) : List (Nat × K) → List (Nat × K)
  | [] => [(j, x)]
  | (j', y) :: l => if j' = j then sumRun j (x + y) l else (j, x) :: sumRun j' y l

/-- hamiltonianConstruction.py 77, `sum_duplicates` on one row: neighbouring entries of the same column are added; zeros stay. -/
def sumDuplicates [Add K] : List (Nat × K) → List (Nat × K)
  | [] => []
  | (j, x) :: l => sumRun j x l

/-- hamiltonianConstruction.py 77: the rows after `tocsr`. `srt` is the sorting of a row by its columns (`sort_indices`, `std::sort`),
which need not keep the order of equal columns. -/
def SpMat.csrRows [Add K] (srt : List (Nat × K) → List (Nat × K)) (M : SpMat K) : List (List (Nat × K)) :=
  (List.range M.dim).map (fun i => sumDuplicates (srt (rowEntries M.coo i)))

/-- hamiltonianConstruction.py 77, `tocsr`: the three arrays. -/
def SpMat.toCsr [Add K] (srt : List (Nat × K) → List (Nat × K)) (M : SpMat K) : Csr K :=
  let rows := M.csrRows srt
  ⟨rows.flatten.map (·.2), rows.flatten.map (·.1), (List.range (M.dim + 1)).map (fun i => ((rows.map List.length).take i).sum)⟩

/-- Row `i` of the arrays: the columns and values from `indptr[i]` to `indptr[i + 1]`. -/
def Csr.row (M : Csr K) (i : Nat) : List (Nat × K) :=
  ((M.indices.zip M.data).take (M.indptr.getD (i + 1) 0)).drop (M.indptr.getD i 0)

/-- The entry of a matrix in compressed rows. -/
def Csr.entry [AddCommMonoid K] (M : Csr K) (i j : Nat) : K := (((M.row i).filter (fun p => p.1 = j)).map (·.2)).sum

/-- davidson.py 260, `A.dot(x)` for one column `x` (`csr_matvec`); the shape of `A` is `dim` times `dim`. -/
def Csr.dot [NonUnitalNonAssocSemiring K] (M : Csr K) (dim : Nat) (x : List K) : List K :=
  (List.range dim).map (fun i => ((M.row i).map (fun p => p.2 * x.getD p.1 0)).sum)

/-- davidson.py 281, `A.diagonal()`. -/
def Csr.diagonal [AddCommMonoid K] (M : Csr K) (dim : Nat) : List K := (List.range dim).map (fun i => M.entry i i)

end TJ
