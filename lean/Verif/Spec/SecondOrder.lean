/-
Vocabulary for the dynamic dressing of embedding_blocks: two copies of a block side by side, electrons that move from one to the
other, and second-order couplings through the intermediate states. Nothing here refers to lists, bases or the code.
-/
import Verif.Spec.Hamiltonian
import Mathlib.Data.Fintype.Prod
import Mathlib.Algebra.Order.Field.Basic
import Mathlib.Algebra.Order.Group.Abs

namespace TJ

open Finset

/-- Occupations of two blocks. -/
abbrev Conf2 (n : Nat) := Conf n × Conf n

/-- Site `x` of the left block among the sites of both. -/
abbrev lsite {n : Nat} (x : Fin n) : Fin (n + n) := Fin.castAdd n x

/-- Site `y` of the right block among the sites of both. -/
abbrev rsite {n : Nat} (y : Fin n) : Fin (n + n) := Fin.natAdd n y

/-- `α'` is `α` turned by `q` quarter turns on the `L x L` square. -/
def TurnedTo (L q : Nat) {n : Nat} (α α' : Conf n) : Prop :=
  ∀ s s' : Fin n, gridPos L s' = (turn L ^ q) (gridPos L s) → α' s' = α s

instance (L q : Nat) {n : Nat} (α α' : Conf n) : Decidable (TurnedTo L q α α') := by unfold TurnedTo; infer_instance

section
variable {K : Type} [Field K] [LinearOrder K] {n : Nat} (I : Interactions K) (pos : Fin (n + n) → Pt)

/-- Two bonds of the lattice lead from `a` to `b`. -/
def TwoBonds (a b : Fin (n + n)) : Prop := ∃ m, Near (pos a) (pos m) ∧ Near (pos m) (pos b)

instance (a b : Fin (n + n)) : Decidable (TwoBonds pos a b) := by unfold TwoBonds; infer_instance

/-- Amplitude of the move of one electron between two sites: `t` along a bond, `tnNNN` along two bonds in line, `tNNN` around a
corner. -/
def moveAmp (a b : Fin (n + n)) : K :=
  (if Near (pos a) (pos b) then I.t else 0) +
    (if TwoBonds pos a b then (if (pos a).1 = (pos b).1 ∨ (pos a).2 = (pos b).2 then I.tnNNN else I.tNNN) else 0)

/-- An electron of spin `s` comes from the right block onto a hole of the left block, over one or two bonds: the states reached
from the left occupation `α` when the right block has `h` holes and `b` down spins before. -/
def Borrowed (h b : Nat) (s : Occ) (α : Conf n) (P : Conf2 n) : Prop :=
  ∃ x y, ∃ β : Conf n, β.count .hole = h ∧ β.count .down = b ∧ α x = .hole ∧ β y = s ∧
    (Near (pos (lsite x)) (pos (rsite y)) ∨ TwoBonds pos (lsite x) (rsite y)) ∧
    P = (Function.update α x s, Function.update β y .hole)

instance (h b : Nat) (s : Occ) (α : Conf n) (P : Conf2 n) : Decidable (Borrowed pos h b s α P) := by
  unfold Borrowed; infer_instance

/-- Amplitude from `P` to `Q`: an electron of spin `s` goes back from the left block onto a hole of the right block. -/
def returnAmp (s : Occ) (P Q : Conf2 n) : K :=
  ∑ x, ∑ y, if P.1 x = s ∧ P.2 y = .hole ∧ Q = (Function.update P.1 x .hole, Function.update P.2 y s)
    then moveAmp I pos (lsite x) (rsite y) else 0

/-- Energy of the occupations of both blocks: spin coupling without exchange, and repulsion of holes. -/
def jointEnergy (P : Conf2 n) : K :=
  hamEl I pos ⟨false, true, false, false, false, true⟩ (Fin.append P.1 P.2) (Fin.append P.1 P.2)

/-- Second-order coupling of `Q` and `Q'` through `P`, weighted with the state `ψ` of the right block; `en` is the energy of one
block. Couplings below the threshold are dropped. -/
def secondOrder (ψ : Conf n → K) (en thr : K) (s : Occ) (P Q Q' : Conf2 n) : K :=
  let x := ψ Q.2 * ψ Q'.2 * returnAmp I pos s P Q * returnAmp I pos s P Q' / (2 * en - jointEnergy I pos P)
  if thr ≤ |x| then x else 0

/-- What the dynamic dressing adds between the left occupations `a` and `a'` for the left occupation `α`: the couplings of all
pairs of different states `Q`, `Q'` of the blocks through the states in which an electron has come over to `α`. The right block is
put on the side reached after `q` quarter turns (of a square of side `L`). -/
def dressing (h b : Nat) (ψ : Conf n → K) (en thr : K) (L q : Nat) (α a a' : Conf n) : K :=
  ∑ s ∈ {Occ.down, Occ.up}, ∑ P, if Borrowed pos h b s α P then
    ∑ Q, ∑ Q', if Q ≠ Q' ∧ TurnedTo L q Q.1 a ∧ TurnedTo L q Q'.1 a' then secondOrder I pos ψ en thr s P Q Q' else 0 else 0

end

end TJ
