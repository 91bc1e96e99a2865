/-
Textbook matrix elements of the extended t-J Hamiltonian, between two occupations of the
sites. Nothing here refers to lists, bases or the code; `Occ`, `Occ.val` (the Sz value) and the
record of couplings are shared with the model.
-/
import Verif.Model.Interactions
import Verif.Spec.Occupation
import Verif.Spec.Geometry
import Mathlib.Data.Fintype.Pi
import Mathlib.Data.Fintype.BigOperators
import Mathlib.Algebra.BigOperators.Group.Finset.Basic

namespace TJ

open Finset

/-- The determinant `d` is the canonical determinant obtained from `det` by moving the
content of every site `s` to the site `π s`. -/
def Moved (n h b : Nat) (π : Nat → Nat) (det d : List Nat) : Prop :=
  Canonical n h b d ∧ ∀ s < n, occ h b d (π s) = occ h b det s

/-- An occupation of `n` sites. -/
abbrev Conf (n : Nat) := Fin n → Occ

/-- The occupation of the sites in a determinant. -/
def conf (c : Config) (det : List Nat) : Conf c.nsites := fun s => occ c.nholes c.nbeta det s

/-- Number of sites with content `o`. -/
def Conf.count {n : Nat} (σ : Conf n) (o : Occ) : Nat := (univ.filter (fun s => σ s = o)).card

/-- The contents of the sites `a` and `b` are exchanged. -/
def exch {n : Nat} (σ : Conf n) (a b : Fin n) : Conf n := fun s => σ (Equiv.swap a b s)

/-- Cyclic move along a path: the content of `m` goes to `a`, that of `b` to `m`, that of
`a` to `b`. -/
def shift3 {n : Nat} (σ : Conf n) (a m b : Fin n) : Conf n := fun s =>
  if s = a then σ m else if s = m then σ b else if s = b then σ a else σ s

/-- Exchange of up and down everywhere. -/
def Conf.rev {n : Nat} (σ : Conf n) : Conf n := fun s => (σ s).rev

/-- Linear combination of two sets of couplings. -/
def lincomb {K : Type} [Field K] (x y : K) (I I' : Interactions K) : Interactions K :=
  ⟨x * I.t + y * I'.t, x * I.J + y * I'.J, x * I.Jhpar + y * I'.Jhpar, x * I.Jhper + y * I'.Jhper,
    x * I.hSDpar + y * I'.hSDpar, x * I.hSDper + y * I'.hSDper, x * I.tNNN + y * I'.tNNN, x * I.tnNNN + y * I'.tnNNN,
    x * I.VNN + y * I'.VNN, x * I.VNNNper + y * I'.VNNNper⟩

section
variable {K : Type} [Field K] {n : Nat} (I : Interactions K) (pos : Fin n → Pt)

/-- Some hole is next to the bond (a, b). -/
def HoleNext (σ : Conf n) (a b : Fin n) : Prop :=
  ∃ x, σ x = .hole ∧ (Near (pos a) (pos x) ∨ Near (pos b) (pos x))

/-- Some hole next to the bond (a, b) is on the line of the bond. -/
def HoleInline (σ : Conf n) (a b : Fin n) : Prop :=
  ∃ x, σ x = .hole ∧ (Near (pos a) (pos x) ∨ Near (pos b) (pos x)) ∧ Aligned (pos a) (pos b) (pos x)

instance (σ : Conf n) (a b : Fin n) : Decidable (HoleNext pos σ a b) := by unfold HoleNext; infer_instance
instance (σ : Conf n) (a b : Fin n) : Decidable (HoleInline pos σ a b) := by unfold HoleInline; infer_instance

/-- The spin coupling of the bond (a, b) depends on the holes next to it. -/
def Jeff (σ : Conf n) (a b : Fin n) : K :=
  if HoleInline pos σ a b then I.Jhpar else if HoleNext pos σ a b then I.Jhper else I.J

/-- Nearest-neighbour hopping of a hole. -/
def hopEl (σ τ : Conf n) : K :=
  ∑ a, ∑ b, if σ a = .hole ∧ σ b ≠ .hole ∧ Near (pos a) (pos b) ∧ τ = exch σ a b then I.t else 0

/-- Hopping of a hole by two bonds: `tnNNN` along a line, `tNNN` around a corner. -/
def nextEl (σ τ : Conf n) : K :=
  ∑ a, ∑ b, if σ a = .hole ∧ σ b ≠ .hole ∧ (∃ m, Near (pos a) (pos m) ∧ Near (pos m) (pos b)) ∧ τ = exch σ a b
    then (if (pos a).1 = (pos b).1 ∨ (pos a).2 = (pos b).2 then I.tnNNN else I.tNNN) else 0

/-- Diagonal part of the spin coupling: J (Sz Sz - 1/4) on bonds with two electrons. -/
def staticEl (σ τ : Conf n) : K :=
  if τ = σ then
    ∑ a, ∑ b, if a < b ∧ Near (pos a) (pos b) ∧ σ a ≠ .hole ∧ σ b ≠ .hole
      then Jeff I pos σ a b * ((σ a).val * (σ b).val - 1 / 4) else 0
  else 0

/-- Spin flip: J/2 on bonds with opposite spins. -/
def flipEl (σ τ : Conf n) : K :=
  ∑ a, ∑ b, if a < b ∧ Near (pos a) (pos b) ∧ σ a ≠ .hole ∧ σ b ≠ .hole ∧ σ a ≠ σ b ∧ τ = exch σ a b
    then Jeff I pos σ a b / 2 else 0

/-- Singlet displacement: a hole at `a`, opposite spins at `m`, `b` along a path of two
bonds. -/
def sdEl (σ τ : Conf n) : K :=
  ∑ a, ∑ m, ∑ b, if σ a = .hole ∧ σ m ≠ .hole ∧ σ b = (σ m).rev ∧ Near (pos a) (pos m) ∧ Near (pos m) (pos b)
    then (if Aligned (pos a) (pos m) (pos b) then I.hSDpar else I.hSDper) *
      ((if τ = shift3 σ a m b then 1 else 0) - (if τ = exch σ a b then 1 else 0)) else 0

/-- Repulsion of neighbouring and of diagonal holes. -/
def repEl (σ τ : Conf n) : K :=
  if τ = σ then
    ∑ a, ∑ b, if a < b ∧ σ a = .hole ∧ σ b = .hole
      then (if Near (pos a) (pos b) then I.VNN else 0) + (if Diagonal (pos a) (pos b) then I.VNNNper else 0) else 0
  else 0

/-- The matrix element of the selected terms. -/
def hamEl (B : BoolInteractions) (σ τ : Conf n) : K :=
  (if B.bt then hopEl I pos σ τ else 0) + (if B.bz then staticEl I pos σ τ else 0)
    + (if B.bij then flipEl I pos σ τ else 0) + (if B.bSD then sdEl I pos σ τ else 0)
    + (if B.btN then nextEl I pos σ τ else 0) + (if B.bV then repEl I pos σ τ else 0)

/-- The Hamiltonian as an operator on functions of the occupations. -/
def tjOp (B : BoolInteractions) (ψ : Conf n → K) (σ : Conf n) : K := ∑ τ, hamEl I pos B σ τ * ψ τ

end

/-- A state with `h` holes and `b` down spins. -/
def InSector {K : Type} [Zero K] {n : Nat} (h b : Nat) (ψ : Conf n → K) : Prop :=
  ∀ σ, ψ σ ≠ 0 → σ.count .hole = h ∧ σ.count .down = b

end TJ
