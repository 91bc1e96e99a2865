/-
The sign rules of the ground states.
-/
import Verif.Spec.Hamiltonian
import Mathlib.Data.Real.Basic

namespace TJ

open Finset

/-- Marshall's sign: one factor -1 for every down spin on a black field of the checkerboard. -/
def marshall {n : Nat} (pos : Fin n → Pt) (σ : Conf n) : ℝ :=
  ∏ s, if σ s = .down ∧ ((pos s).1 + (pos s).2) % 2 ≠ 0 then -1 else 1

/-- The sign rule of a ferromagnet with holes: for positive `t` one factor -1 for every hole on a black field of the checkerboard,
otherwise all coefficients have the same sign. -/
noncomputable def ferroSign {n : Nat} (t : ℝ) (pos : Fin n → Pt) (σ : Conf n) : ℝ :=
  if 0 < t then ∏ s, if σ s = .hole ∧ ((pos s).1 + (pos s).2) % 2 ≠ 0 then -1 else 1 else 1

end TJ
