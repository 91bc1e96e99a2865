/-
What the three arrays of a matrix in compressed rows have to satisfy, and the matrix they stand for. Independent of the model.
-/
import Mathlib.Data.List.Basic
import Mathlib.Order.Interval.Finset.Nat
import Mathlib.Algebra.BigOperators.Group.Finset.Basic

namespace TJ

/-- The lengths of the arrays fit a matrix with `dim` rows: one pointer more than rows, the first one to the beginning and the last one to the end
of two arrays of the same length. -/
structure CsrShape {K : Type} (dim : Nat) (data : List K) (indices indptr : List Nat) : Prop where
  pointers : indptr.length = dim + 1
  first : indptr[0]? = some 0
  last : indptr[dim]? = some data.length
  columns : indices.length = data.length

/-- The arrays `data`, `indices`, `indptr` describe a square matrix of dimension `dim` in canonical form: the rows follow one another
without gap, from the beginning to the end of the arrays, and within each row the columns increase strictly and are below `dim`. -/
structure CanonicalCsr {K : Type} (dim : Nat) (data : List K) (indices indptr : List Nat) : Prop where
  pointers : indptr.length = dim + 1
  first : indptr[0]? = some 0
  last : indptr[dim]? = some data.length
  columns : indices.length = data.length
  ordered : ∀ i p q, indptr[i]? = some p → indptr[i + 1]? = some q → p ≤ q ∧
    (∀ k j, p ≤ k → k < q → indices[k]? = some j → j < dim) ∧
    ∀ k j j', p ≤ k → k + 1 < q → indices[k]? = some j → indices[k + 1]? = some j' → j < j'

/-- The sum of the values stored for row `i` and column `j`. -/
def csrSum {K : Type} [AddCommMonoid K] (data : List K) (indices indptr : List Nat) (i j : Nat) : K :=
  ∑ k ∈ Finset.Ico (indptr.getD i 0) (indptr.getD (i + 1) 0), if indices[k]? = some j then data.getD k 0 else 0

end TJ
