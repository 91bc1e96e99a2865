/-
What the theorems about lattices of type 'clusters' assume: the contract of an exact
`eigh`, the rounding, and what a relabelled rectangular lattice is.
-/
import Verif.Model.Base
import Verif.Spec.Geometry
import Mathlib.Algebra.Order.Field.Basic
import Mathlib.Algebra.BigOperators.Ring.Finset
import Mathlib.Algebra.Order.BigOperators.Group.Finset

namespace TJ

variable {K : Type} [Field K] [LinearOrder K] [IsStrictOrderedRing K]

/-- `U`, `d` is a possible exact answer of `eigh` for the `n x n` matrix `A`: the columns of `U`
are orthonormal eigenvectors, sorted by eigenvalue. -/
structure EighOf (n : Nat) (A : Nat → Nat → Int) (U : Nat → Nat → K) (d : Nat → K) : Prop where
  orth : ∀ i < n, ∀ j < n, ∑ k ∈ Finset.range n, U i k * U j k = if i = j then 1 else 0
  diag : ∀ i < n, ∀ j < n, (A i j : K) = ∑ k ∈ Finset.range n, U i k * (d k * U j k)
  asc : ∀ k < n, ∀ l < n, k ≤ l → d k ≤ d l

/-- A rounding of precision `ε`. -/
structure Rounds (rnd : K → K) (ε : K) : Prop where
  zero : rnd 0 = 0
  one : rnd 1 = 1
  ofZero : ∀ x, rnd x = 0 → |x| ≤ ε
  ofOne : ∀ x, rnd x = 1 → |x - 1| ≤ ε

/-- A configuration of type 'clusters' whose sites are those of the rectangular lattice of its
`nbh`, `nbv`, `nblocs`, site `s` being site `π s` of the row by row numbering. -/
structure ClustersConf (c : Config) (P : NdMat) (π : Nat → Nat) : Prop where
  hh : 1 ≤ c.nbh
  hv : 1 ≤ c.nbv
  hb : 1 ≤ c.nblocs
  ltype : c.ltype = .clusters
  periodic : buildRectangularBondMatrix c.nbh c.nbv c.nblocs = .ok P
  size : c.nsites = P.rows
  lt : ∀ i < c.nsites, π i < c.nsites
  inj : ∀ i < c.nsites, ∀ j < c.nsites, π i = π j → i = j
  bond : ∀ i < c.nsites, ∀ j < c.nsites, c.bond.e i j = P.e (π i) (π j)

end TJ
