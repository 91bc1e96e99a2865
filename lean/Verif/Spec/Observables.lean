/-
Vocabulary for the properties of the probabilities and of the displays.
-/
import Verif.Spec.Spin
import Mathlib.Algebra.Order.Group.Unbundled.Abs

namespace TJ

open Finset

/-- Probability (Born rule) that the site `s` is in state `o`, for a state with
coefficients `φ`. -/
def born {K : Type} [Field K] {n : Nat} (φ : Conf n → K) (s : Fin n) (o : Occ) : K :=
  (∑ σ, if σ s = o then φ σ * φ σ else 0) / ∑ σ, φ σ * φ σ

/-- The symbol of a state in `get_displayable_determinant`. -/
def Occ.sign : Occ → Char
  | .hole => '0'
  | .down => '-'
  | .up => '+'

/-- The symbol of a state in `get_displayable_rectangular_lattice`. -/
def Occ.arrow : Occ → Char
  | .hole => '0'
  | .down => '↓'
  | .up => '↑'

/-- The text consists of the lines `L`. -/
def IsText (text : List Char) (L : List (List Char)) : Prop :=
  text = ['\n'].intercalate L ∧ ∀ l ∈ L, '\n' ∉ l

/-- The character at a line and a column. -/
def charAt (L : List (List Char)) (line col : Nat) : Option Char := L[line]?.bind (fun l => l[col]?)

/-- `idx` are the positions of `k` (or of all, if there are fewer) largest coefficients of `v` in
modulus, in decreasing order of modulus. -/
def TopPositions {K : Type} [Field K] [LinearOrder K] (v : List K) (k : Nat) (idx : List Nat) : Prop :=
  idx.Nodup ∧ idx.length = min k v.length ∧ (∀ i ∈ idx, i < v.length) ∧
    idx.Pairwise (fun i j => |v.getD j 0| ≤ |v.getD i 0|) ∧
    ∀ j < v.length, j ∉ idx → ∀ i ∈ idx, |v.getD j 0| ≤ |v.getD i 0|

end TJ
