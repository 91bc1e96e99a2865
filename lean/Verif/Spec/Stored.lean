/-
The occupations that the terms of the t-J Hamiltonian connect, whatever the values of the couplings.
-/
import Verif.Spec.Hamiltonian

namespace TJ

/-- A hole and an electron on neighbouring sites change places. -/
def HopMove {n : Nat} (pos : Fin n → Pt) (σ : Conf n) (a b : Fin n) : Prop := σ a = .hole ∧ σ b ≠ .hole ∧ Near (pos a) (pos b)

/-- A hole and an electron two bonds apart change places. -/
def NextMove {n : Nat} (pos : Fin n → Pt) (σ : Conf n) (a b : Fin n) : Prop :=
  σ a = .hole ∧ σ b ≠ .hole ∧ ∃ m, Near (pos a) (pos m) ∧ Near (pos m) (pos b)

/-- Opposite spins on neighbouring sites. -/
def FlipMove {n : Nat} (pos : Fin n → Pt) (σ : Conf n) (a b : Fin n) : Prop :=
  a < b ∧ Near (pos a) (pos b) ∧ σ a ≠ .hole ∧ σ b ≠ .hole ∧ σ a ≠ σ b

/-- A hole next to a pair of opposite spins. -/
def SingletMove {n : Nat} (pos : Fin n → Pt) (σ : Conf n) (a m b : Fin n) : Prop :=
  σ a = .hole ∧ σ m ≠ .hole ∧ σ b = (σ m).rev ∧ Near (pos a) (pos m) ∧ Near (pos m) (pos b)

instance {n : Nat} (pos : Fin n → Pt) (σ : Conf n) (a b : Fin n) : Decidable (HopMove pos σ a b) := by unfold HopMove; infer_instance
instance {n : Nat} (pos : Fin n → Pt) (σ : Conf n) (a b : Fin n) : Decidable (NextMove pos σ a b) := by unfold NextMove; infer_instance
instance {n : Nat} (pos : Fin n → Pt) (σ : Conf n) (a b : Fin n) : Decidable (FlipMove pos σ a b) := by unfold FlipMove; infer_instance
instance {n : Nat} (pos : Fin n → Pt) (σ : Conf n) (a m b : Fin n) : Decidable (SingletMove pos σ a m b) := by
  unfold SingletMove; infer_instance

/-- The occupations connected by the selected terms, whatever the couplings are. -/
def Linked {n : Nat} (pos : Fin n → Pt) (B : BoolInteractions) (σ τ : Conf n) : Prop :=
  ((B.bz = true ∨ B.bV = true) ∧ τ = σ) ∨
  (∃ a b, ((B.bt = true ∧ HopMove pos σ a b) ∨ (B.btN = true ∧ NextMove pos σ a b) ∨ (B.bij = true ∧ FlipMove pos σ a b)) ∧ τ = exch σ a b) ∨
  (B.bSD = true ∧ ∃ a m b, SingletMove pos σ a m b ∧ (τ = shift3 σ a m b ∨ τ = exch σ a b))

instance {n : Nat} (pos : Fin n → Pt) (B : BoolInteractions) (σ τ : Conf n) : Decidable (Linked pos B σ τ) := by unfold Linked; infer_instance

/-- Number of ordered pairs of sites of a `W x H` rectangle with one site between them, on one line. -/
def rectStraight (W H : Nat) : Nat := 2 * (H * (W - 2) + W * (H - 2))

end TJ
