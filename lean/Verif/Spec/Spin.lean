/-
The total spin on functions of the occupations, independently of bases and lists.
-/
import Verif.Model.Spin
import Verif.Spec.Hamiltonian

namespace TJ

open Finset

/-- The function on the occupations given by the coefficients `v` on the determinants
`dets`; zero on occupations that are not listed. -/
def amp {K : Type} [AddCommMonoid K] (c : Config) (dets : List (List Nat)) (v : List K) (σ : Conf c.nsites) : K :=
  ∑ j ∈ range dets.length, if conf c (dets.getD j []) = σ then v.getD j 0 else 0

/-- Number of electrons. -/
def Conf.electrons {n : Nat} (σ : Conf n) : Nat := σ.count .down + σ.count .up

/-- Total spin: 3/4 per electron, and (exchange - 1/2) per pair of electrons. -/
def spin2 {K : Type} [Field K] {n : Nat} (φ : Conf n → K) (σ : Conf n) : K :=
  3 / 4 * (σ.electrons : K) * φ σ +
    ∑ a, ∑ b, if a < b ∧ σ a ≠ .hole ∧ σ b ≠ .hole then φ (exch σ a b) - φ σ / 2 else 0

/-- The set order lists hole sites increasingly: the intersection of an increasing list of
`nholes` sites with the interacting sites is enumerated increasingly. (CPython does this
when all sites are smaller than 8.) -/
def HolesInOrder (S : SetSem) (c : Config) : Prop :=
  ∀ l : List Nat, l.Pairwise (· < ·) → l.length = c.nholes → (∀ x ∈ l, x < c.nsites) →
    (S.inter l c.restr.1).Pairwise (· < ·)

/-- Product of a sparse matrix with a vector (`ham @ v`). -/
def matVec {K : Type} [Field K] (H : SpMat K) (v : List K) : List K :=
  (List.range H.dim).map (fun i => ∑ j ∈ range H.dim, H.entry i j * v.getD j 0)

end TJ
