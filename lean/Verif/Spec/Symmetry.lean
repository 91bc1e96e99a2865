/-
Vocabulary for the symmetries of a rectangular lattice.
-/
import Verif.Spec.Hamiltonian

namespace TJ

/-- Left and right exchanged in a lattice of `W` columns. -/
def mirrorX (W : Nat) (p : Pt) : Pt := (W - 1 - p.1, p.2)

/-- Top and bottom exchanged in a lattice of `H` rows. -/
def mirrorY (H : Nat) (p : Pt) : Pt := (p.1, H - 1 - p.2)

/-- The symmetries of a `W x H` rectangle: products of the two mirrors and, for a square, of quarter turns. -/
inductive LatSym (W H : Nat) : (Pt → Pt) → Prop
  | one : LatSym W H id
  | mirX {f : Pt → Pt} : LatSym W H f → LatSym W H (mirrorX W ∘ f)
  | mirY {f : Pt → Pt} : LatSym W H f → LatSym W H (mirrorY H ∘ f)
  | quarter {f : Pt → Pt} : W = H → LatSym W H f → LatSym W H (turn W ∘ f)

/-- `τ` is `σ` with the content of every site moved to its image under `f`, on a lattice with `W` sites per row. -/
def MovedBy {n : Nat} (W : Nat) (f : Pt → Pt) (σ τ : Conf n) : Prop :=
  ∀ s t : Fin n, gridPos W t = f (gridPos W s) → τ t = σ s

end TJ
