/-
Independent vocabulary for lattices: sites are points of the plane, neighbours are points
at distance one.
-/
import Mathlib.Data.Int.Basic
import Mathlib.Data.Prod.Basic
import Mathlib.Algebra.Group.End
import Mathlib.Algebra.Order.Group.Int
import Mathlib.Data.Int.Order.Basic

namespace TJ

/-- A point of the plane with integer coordinates. -/
abbrev Pt := Int × Int

/-- Points at distance one. -/
def Near (p q : Pt) : Prop := (p.1 - q.1).natAbs + (p.2 - q.2).natAbs = 1

/-- Three points on one horizontal or vertical line. -/
def Aligned (p q r : Pt) : Prop := (p.1 = q.1 ∧ q.1 = r.1) ∨ (p.2 = q.2 ∧ q.2 = r.2)

/-- Opposite corners of a unit tile. -/
def Diagonal (p q : Pt) : Prop := (p.1 - q.1).natAbs = 1 ∧ (p.2 - q.2).natAbs = 1

instance (p q : Pt) : Decidable (Near p q) := by unfold Near; infer_instance
instance (p q r : Pt) : Decidable (Aligned p q r) := by unfold Aligned; infer_instance
instance (p q : Pt) : Decidable (Diagonal p q) := by unfold Diagonal; infer_instance

/-- Position of site `s` when sites are numbered row by row, `w` sites per row. -/
def gridPos (w s : Nat) : Pt := (((s % w : Nat) : Int), ((s / w : Nat) : Int))

/-- A clockwise quarter turn of the `L x L` square (the `y` axis points downwards or
upwards according to taste; the code draws row 0 at the bottom). -/
def turn (L : Nat) : Equiv.Perm Pt where
  toFun p := (p.2, L - 1 - p.1)
  invFun p := (L - 1 - p.2, p.1)
  left_inv p := by ext <;> simp
  right_inv p := by ext <;> simp

/-- Position of site `s` of a `W x H` block surrounded by peripheral sites: block sites
first, row by row, then the lower border from left to right, the right border upwards, the
upper border from right to left and the left border downwards. -/
def periPos (W H s : Nat) : Pt :=
  if s < W * H then gridPos W s
  else
    let t := s - W * H
    if t < W then (t, -1)
    else if t < W + H then (W, (t - W : Nat))
    else if t < 2 * W + H then ((W : Int) - 1 - (t - (W + H) : Nat), H)
    else (-1, (H : Int) - 1 - (t - (2 * W + H) : Nat))

/-- The side of the block to which the `t`-th peripheral site belongs: below, right, above, left. -/
def periSide (W H t : Nat) : Nat :=
  if t < W then 0 else if t < W + H then 1 else if t < 2 * W + H then 2 else 3

/-- Position of site `s` of two `W x H` blocks side by side, the left one first. -/
def twoPos (W H s : Nat) : Pt :=
  if s < W * H then gridPos W s else ((gridPos W (s - W * H)).1 + W, (gridPos W (s - W * H)).2)

end TJ
