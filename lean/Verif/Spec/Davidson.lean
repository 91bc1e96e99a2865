/-
Vocabulary for the properties of the diagonalisation: selection of the lowest values,
orthonormal families, contracts of the numerical library.
-/
import Verif.Model.Davidson
import Mathlib.LinearAlgebra.Matrix.Symmetric

namespace TJ

open Matrix

section
variable {K : Type} [Field K] [LinearOrder K]

/-- `idx` are the positions of `k` (or of all, if there are fewer) smallest values, in increasing
order of value. -/
def LowPositions (vals : List K) (k : Nat) (idx : List Nat) : Prop :=
  idx.Nodup ∧ idx.length = min k vals.length ∧ (∀ i ∈ idx, i < vals.length) ∧
    idx.Pairwise (fun i j => vals.getD i 0 ≤ vals.getD j 0) ∧
    ∀ j < vals.length, j ∉ idx → ∀ i ∈ idx, vals.getD i 0 ≤ vals.getD j 0

/-- The columns have norm 1 and are orthogonal to each other. -/
def Ortho {d : Nat} (V : List (Fin d → K)) : Prop :=
  ∀ i j : Fin V.length, V.get i ⬝ᵥ V.get j = if i = j then 1 else 0

/-- `v` is a combination of the columns of `V`. -/
def InSpan {d : Nat} (V : List (Fin d → K)) (v : Fin d → K) : Prop :=
  ∃ y : Fin V.length → K, v = ∑ i, y i • V.get i

/-- Exact square roots. -/
def LinAlg.ExactSqrt (L : LinAlg K) : Prop := ∀ x, 0 ≤ x → 0 ≤ L.sqrt x ∧ L.sqrt x * L.sqrt x = x

/-- Exact diagonalisation of symmetric matrices: orthonormal eigenvectors. -/
def LinAlg.ExactEigh (L : LinAlg K) : Prop := ∀ n (M : Matrix (Fin n) (Fin n) K), M.IsSymm →
  (∀ k, M *ᵥ (L.eigh n M).2 k = (L.eigh n M).1 k • (L.eigh n M).2 k) ∧
  ∀ i j, (L.eigh n M).2 i ⬝ᵥ (L.eigh n M).2 j = if i = j then 1 else 0

/-- Exact reduced QR decomposition of an array with `d` rows and `m` columns: `min d m`
orthonormal columns whose span contains the given columns. -/
def LinAlg.ExactQr (L : LinAlg K) : Prop := ∀ d (V : List (Fin d → K)),
  (L.qr d V).length = min d V.length ∧ Ortho (L.qr d V) ∧ ∀ v ∈ V, InSpan (L.qr d V) v

/-- The second factor is upper triangular: the first `k` columns are in the span of the first `k` orthonormal columns. -/
def LinAlg.NestedQr (L : LinAlg K) : Prop := ∀ d (V : List (Fin d → K)) k, ∀ v ∈ V.take k, InSpan ((L.qr d V).take k) v

end

end TJ
