/-
Independent vocabulary for the theorems about bases and determinants: what a determinant
means. A determinant is a permutation of the sites, read with the numbers of holes and
down spins: the first `h` sites carry holes, the next `b` sites down spins, the others
up spins.
-/
import Verif.Model.Base
import Mathlib.Data.Fintype.Defs
import Mathlib.Data.List.Basic

namespace TJ

instance : Fintype Occ := ⟨⟨[Occ.hole, Occ.down, Occ.up], by decide⟩, by intro x; cases x <;> decide⟩

/-- A list is a determinant on `n` sites when it lists every site exactly once. -/
def ValidDet (n : Nat) (det : List Nat) : Prop := det.Perm (List.range n)

instance (n : Nat) (det : List Nat) : Decidable (ValidDet n det) :=
  inferInstanceAs (Decidable (det.Perm (List.range n)))

/-- Occupation of site `s` in the determinant `det` with `h` holes and `b` down spins. -/
def occ (h b : Nat) (det : List Nat) (s : Nat) : Occ :=
  if s ∈ det.take h then .hole
  else if s ∈ (det.drop h).take b then .down
  else .up

/-- Number of sites below `n` with content `o`. -/
def cnt (n : Nat) (σ : Nat → Occ) (o : Occ) : Nat := ((List.range n).filter (fun s => σ s = o)).length

/-- The determinant is written canonically: a permutation of the sites whose three parts
are increasing. -/
def Canonical (n h b : Nat) (det : List Nat) : Prop :=
  ValidDet n det ∧ (det.take h).Pairwise (· < ·) ∧ ((det.drop h).take b).Pairwise (· < ·)
    ∧ (det.drop (h + b)).Pairwise (· < ·)

/-- The sites below `n` with content `o`, in increasing order. -/
def sitesOf (n : Nat) (σ : Nat → Occ) (o : Occ) : List Nat := (List.range n).filter (fun s => σ s = o)

/-- The canonical determinant of an occupation. -/
def detOf (n : Nat) (σ : Nat → Occ) : List Nat :=
  sitesOf n σ .hole ++ sitesOf n σ .down ++ sitesOf n σ .up

/-- Lexicographic order on (hole sites, down sites). -/
def LexHB (h b : Nat) (d e : List Nat) : Prop :=
  List.Lex (· < ·) (d.take h) (e.take h) ∨
    (d.take h = e.take h ∧ List.Lex (· < ·) ((d.drop h).take b) ((e.drop h).take b))

/-- No restriction on the interacting sites. -/
def Config.Full (c : Config) : Prop := ∀ s < c.nsites, s ∈ c.restr.1 ∧ s ∈ c.restr.2

/-- Exchange of up and down. -/
def Occ.rev : Occ → Occ
  | .hole => .hole
  | .down => .up
  | .up => .down

/-- `L` lists the increasing `k`-subsets of `range n` in strictly increasing lexicographic
order (this determines `L`). -/
def SubsetEnum (n k : Nat) (L : List (List Nat)) : Prop :=
  L.Pairwise (List.Lex (· < ·)) ∧
    ∀ ys, ys ∈ L ↔ ys.Pairwise (· < ·) ∧ (∀ y ∈ ys, y < n) ∧ ys.length = k

end TJ
