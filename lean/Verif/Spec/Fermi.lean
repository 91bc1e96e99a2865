/-
Electrons as fermions: annihilation operators on the subsets of a finite set of modes, and the t-J Hamiltonian written with them.
Nothing here refers to lists, bases or the code.
-/
import Verif.Spec.Hamiltonian
import Mathlib.Data.Matrix.Mul
import Mathlib.Data.Fintype.Powerset

namespace TJ

open Finset

section
variable (K : Type) [Field K] {M : Type} [DecidableEq M]

/-- The number of occupied modes that come before the mode `m`, when the modes are numbered by `r`. -/
def before (r : M → Nat) (m : M) (S : Finset M) : Nat := (S.filter fun k => r k < r m).card

/-- The annihilation operator of the mode `m`, as a matrix between the sets of occupied modes: the mode is emptied, and each occupied mode
before it gives a change of sign. -/
def annih (r : M → Nat) (m : M) : Matrix (Finset M) (Finset M) K := fun T S =>
  if m ∈ S ∧ T = S.erase m then (-1) ^ before r m S else 0

/-- The creation operator. -/
def create (r : M → Nat) (m : M) : Matrix (Finset M) (Finset M) K := (annih K r m).transpose

end

/-- One electron of either spin (`true` is up) can sit on each of `n` sites. -/
abbrev Mode (n : Nat) := Fin n × Bool

/-- The content of a site with one electron. -/
def spinOcc (s : Bool) : Occ := if s then .up else .down

/-- The modes occupied in an occupation without doubly occupied sites. -/
def fock {n : Nat} (σ : Conf n) : Finset (Mode n) := univ.filter fun m => σ m.1 = spinOcc m.2

section
variable {K : Type} [Field K] {n : Nat} (r : Mode n → Nat) (I : Interactions K) (pos : Fin n → Pt)

/-- An electron of either spin goes from `a` to `b`. -/
def transfer (a b : Fin n) : Matrix (Finset (Mode n)) (Finset (Mode n)) K :=
  ∑ s, create K r (b, s) * annih K r (a, s)

/-- The number of electrons of spin `s` on site `a`. -/
def number (a : Fin n) (s : Bool) : Matrix (Finset (Mode n)) (Finset (Mode n)) K := create K r (a, s) * annih K r (a, s)

/-- The spin at `a` changes from `s` to `s'`. -/
def ladder (a : Fin n) (s s' : Bool) : Matrix (Finset (Mode n)) (Finset (Mode n)) K := create K r (a, s') * annih K r (a, s)

/-- The spin projection at `a`. -/
def projection (a : Fin n) : Matrix (Finset (Mode n)) (Finset (Mode n)) K := (1 / 2 : K) • (number r a true - number r a false)

/-- The number of electrons at `a`. -/
def electrons (a : Fin n) : Matrix (Finset (Mode n)) (Finset (Mode n)) K := number r a true + number r a false

/-- Diagonal part of `S_a S_b - n_a n_b / 4`. -/
def isingOp (a b : Fin n) : Matrix (Finset (Mode n)) (Finset (Mode n)) K :=
  projection r a * projection r b - (1 / 4 : K) • (electrons r a * electrons r b)

/-- The other part, `(S+_a S-_b + S-_a S+_b) / 2`. -/
def flipOp (a b : Fin n) : Matrix (Finset (Mode n)) (Finset (Mode n)) K :=
  (1 / 2 : K) • (ladder r a false true * ladder r b true false + ladder r a true false * ladder r b false true)

/-- The matrix element from `σ` to `τ` of the t-J Hamiltonian of fermions, with the selected terms; there is no singlet displacement. -/
def fermiEl (B : BoolInteractions) (σ τ : Conf n) : K :=
  (if B.bt then ∑ a, ∑ b, if Near (pos a) (pos b) then I.t * (transfer r b a : Matrix _ _ K) (fock τ) (fock σ) else 0 else 0)
    + (if B.bz then ∑ a, ∑ b, if a < b ∧ Near (pos a) (pos b) then Jeff I pos σ a b * (isingOp r a b : Matrix _ _ K) (fock τ) (fock σ) else 0 else 0)
    + (if B.bij then ∑ a, ∑ b, if a < b ∧ Near (pos a) (pos b) then Jeff I pos σ a b * (flipOp r a b : Matrix _ _ K) (fock τ) (fock σ) else 0 else 0)
    + (if B.btN then ∑ a, ∑ b, if a ≠ b ∧ ∃ m, Near (pos a) (pos m) ∧ Near (pos m) (pos b)
        then (if (pos a).1 = (pos b).1 ∨ (pos a).2 = (pos b).2 then I.tnNNN else I.tNNN) * (transfer r b a : Matrix _ _ K) (fock τ) (fock σ) else 0
      else 0)
    + (if B.bV then repEl I pos σ τ else 0)

end

end TJ
