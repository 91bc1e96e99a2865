/-
Vocabulary for the properties of the embeddings.
-/
import Verif.Model.Embedding
import Verif.Spec.Observables
import Verif.Spec.Lattice

namespace TJ

open Finset

/-- Points on an odd colour of the checkerboard. -/
def oddSite (p : Pt) : Prop := (p.1 + p.2) % 2 = 1

instance (p : Pt) : Decidable (oddSite p) := by unfold oddSite; infer_instance

/-- The dictionary `p` gives on `m` sites the probabilities `f`. -/
def IsLaw {K : Type} [Field K] (p : List (Int × List K)) (m : Nat) (f : Occ → Nat → K) : Prop :=
  ∀ o : Occ, ∃ l, p.lookup o.twice = some l ∧ l.length = m ∧ ∀ r < m, l.getD r 0 = f o r

/-- `a` and `b` follow each other in the list. -/
def Consec {α : Type} (l : List α) (a b : α) : Prop := ∃ p q, l = p ++ a :: b :: q

/-- Squared distance of two vectors given by their coefficients. -/
def sqDist {K : Type} [Field K] (n : Nat) (v w : List K) : K := ∑ k ∈ range n, (v.getD k 0 - w.getD k 0) ^ 2

/-- The relative change from `old` to `new` is below `tol`. -/
def SmallChange {K : Type} [Field K] [LinearOrder K] (sqrt : K → K) (tol : K) (new old : List K) : Prop :=
  new.length = old.length ∧ sqrt (sqDist old.length old []) ≠ 0 ∧
    sqrt (sqDist old.length new old) / sqrt (sqDist old.length old []) < tol

/-- A diagonalisation that gives, for the matrices of dimension `n`, non-zero vectors of the right length. -/
def Solver.Good {K : Type} [Field K] (solve : Solver K) (n : Nat) : Prop :=
  ∀ k M vals vects gs, M.dim = n → solve k M = .ok (vals, vects) → vects[0]? = some gs → gs.length = n ∧ ∃ x ∈ gs, x ≠ 0

end TJ
