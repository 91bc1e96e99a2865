/-
Lattices embedded in the plane: what the theorems about interactions need to know about a
configuration. Rectangular and peripheral configurations are shown to be of this kind.
-/
import Verif.Model.Base
import Verif.Spec.Geometry

namespace TJ

/-- The configuration is a lattice of the plane: `pos` gives distinct positions to the
sites, bonds are the pairs at distance one, the collinearity test is geometric on paths
of two bonds, and opposite corners of a tile have a common neighbour. -/
structure GeomLattice (E : Env) (c : Config) (pos : Nat → Pt) : Prop where
  inj : ∀ i < c.nsites, ∀ j < c.nsites, pos i = pos j → i = j
  bond : ∀ i < c.nsites, ∀ j < c.nsites, c.bond.e i j = if Near (pos i) (pos j) then 1 else 0
  linear : ∀ a < c.nsites, ∀ m < c.nsites, ∀ b < c.nsites, a ≠ b → Near (pos a) (pos m) → Near (pos m) (pos b) →
    ∀ s1 s2 s3, [s1, s2, s3].Perm [a, m, b] →
      isBondLinear E c s1 s2 s3 = .ok (decide (Aligned (pos a) (pos m) (pos b)))
  tile : ∀ a < c.nsites, ∀ b < c.nsites, Diagonal (pos a) (pos b) →
    ∃ m < c.nsites, Near (pos a) (pos m) ∧ Near (pos m) (pos b)

/-- A rectangular configuration of type 'periodic' of `nbh * nb` columns. -/
structure RectConf (c : Config) (nbh nbv nb : Nat) : Prop where
  hh : 1 ≤ nbh
  hv : 1 ≤ nbv
  hb : 1 ≤ nb
  ltype : c.ltype = .periodic
  bond : buildRectangularBondMatrix nbh nbv nb = .ok c.bond

/-- A peripheral configuration. -/
structure PeriConf (c : Config) : Prop where
  hh : 1 ≤ c.nbh
  hv : 1 ≤ c.nbv
  hb : 1 ≤ c.nblocs
  ltype : c.ltype = .peripheral
  bond : buildBondMatrixNeelEmbedding c.nbh c.nbv c.nblocs = .ok c.bond

/-- Sites allowed by the restriction argument of the neighbour functions. -/
def allowed (n : Nat) : RestrArg → Nat → Prop
  | .list [], s => s < n
  | .list l, s => s ∈ l
  | .pair _ b, s => s ∈ b

end TJ
