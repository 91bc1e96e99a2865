/-
Exchanges of neighbours reach every occupation with the same numbers of holes and spins.
-/
import Verif.Lemmas.Linear
import Verif.Lemmas.Spin
import Mathlib.Logic.Relation
import Mathlib.Logic.Equiv.Fintype
import Mathlib.GroupTheory.Perm.Basic
import Mathlib.GroupTheory.Perm.Support
import Mathlib.GroupTheory.Perm.Sign

namespace TJ

open Finset

section
variable {n : Nat} {pos : Fin n → Pt}

/-- Two different neighbouring contents are exchanged. -/
def ExchStep (pos : Fin n → Pt) (σ τ : Conf n) : Prop := ∃ a b, Near (pos a) (pos b) ∧ σ a ≠ σ b ∧ τ = exch σ a b

/-- Two sites joined by a path of bonds. -/
def Joined (pos : Fin n → Pt) : Fin n → Fin n → Prop := Relation.ReflTransGen (fun a b => Near (pos a) (pos b))

theorem exch_self (σ : Conf n) (a : Fin n) : exch σ a a = σ := by
  funext s; unfold exch; rw [Equiv.swap_self]; rfl

theorem exch_same {σ : Conf n} {a b : Fin n} (h : σ a = σ b) : exch σ a b = σ := by
  funext s
  unfold exch
  rw [Equiv.swap_apply_def]
  split_ifs with h1 h2
  · rw [h1, h]
  · rw [h2, h]
  · rfl

theorem step_near (σ : Conf n) {a b : Fin n} (h : Near (pos a) (pos b)) : Relation.ReflTransGen (ExchStep pos) σ (exch σ a b) := by
  by_cases e : σ a = σ b
  · rw [exch_same e]
  · exact Relation.ReflTransGen.single ⟨a, b, h, e, rfl⟩

theorem exch_conj (σ : Conf n) {a b c : Fin n} (h1 : a ≠ b) (h2 : a ≠ c) : exch σ a c = exch (exch (exch σ b c) a b) b c := by
  funext s
  unfold exch
  congr 1
  simp only [Equiv.swap_apply_def]
  split_ifs <;> simp_all

theorem steps_joined {a c : Fin n} (h : Joined pos a c) : ∀ σ, Relation.ReflTransGen (ExchStep pos) σ (exch σ a c) := by
  induction h with
  | refl => intro σ; rw [exch_self]
  | @tail b c _ hbc ih =>
    intro σ
    by_cases h1 : a = b
    · rw [h1]; exact step_near σ hbc
    by_cases h2 : a = c
    · rw [h2, exch_self]
    rw [exch_conj σ h1 h2]
    exact ((step_near σ hbc).trans (ih _)).trans (step_near _ hbc)

theorem steps_perm (hj : ∀ a b, Joined pos a b) (π : Equiv.Perm (Fin n)) :
    ∀ σ : Conf n, Relation.ReflTransGen (ExchStep pos) σ (fun s => σ (π s)) := by
  induction π using Equiv.Perm.swap_induction_on with
  | one => intro σ; exact Relation.ReflTransGen.refl
  | swap_mul f x y _ ih =>
    intro σ
    exact (steps_joined (hj x y) σ).trans (ih (exch σ x y))

/-- On a connected lattice all occupations with the same numbers are reached. -/
theorem steps_all (hj : ∀ a b, Joined pos a b) (σ τ : Conf n) (h : ∀ o, σ.count o = τ.count o) :
    Relation.ReflTransGen (ExchStep pos) σ τ := by
  have e : ∀ o, Nonempty ({s // τ s = o} ≃ {s // σ s = o}) := by
    intro o
    refine ⟨Fintype.equivOfCardEq ?_⟩
    rw [Fintype.card_subtype, Fintype.card_subtype]
    exact (h o).symm
  let π : Equiv.Perm (Fin n) := Equiv.ofFiberEquiv (f := τ) (g := σ) (fun o => (e o).some)
  have hπ : τ = fun s => σ (π s) := by
    funext s
    exact (Equiv.ofFiberEquiv_map (f := τ) (g := σ) (fun o => (e o).some) s).symm
  rw [hπ]
  exact steps_perm hj π σ

theorem Joined.symm {a b : Fin n} (h : Joined pos a b) : Joined pos b a := by
  unfold Joined at *
  induction h with
  | refl => exact Relation.ReflTransGen.refl
  | tail _ h ih => exact Relation.ReflTransGen.head ((near_comm _ _).1 h) ih

end

/-- All sites of a rectangle are joined. -/
theorem grid_joined (w h : Nat) {n : Nat} (hn : n = w * h) (a b : Fin n) : Joined (fun s : Fin n => gridPos w s) a b := by
  have hw : 0 < w := by
    rcases Nat.eq_zero_or_pos w with h0 | h0
    · subst h0; rw [Nat.zero_mul] at hn; have := a.2; omega
    · exact h0
  have hz : 0 < n := by have := a.2; omega
  have key : ∀ k (hk : k < n), Joined (fun s : Fin n => gridPos w s) ⟨k, hk⟩ ⟨0, hz⟩ := by
    intro k
    induction k using Nat.strong_induction_on with
    | _ k ih =>
      intro hk
      rcases Nat.eq_zero_or_pos k with rfl | h0
      · exact Relation.ReflTransGen.refl
      by_cases hm : k % w = 0
      · have hkw : w ≤ k := by
          by_contra hlt
          rw [Nat.mod_eq_of_lt (by omega)] at hm
          omega
        refine Relation.ReflTransGen.head ?_ (ih (k - w) (by omega) (by omega))
        show Near (gridPos w k) (gridPos w (k - w))
        obtain ⟨m, rfl⟩ : ∃ m, k = m + w := ⟨k - w, by omega⟩
        unfold Near gridPos
        rw [Nat.add_sub_cancel, Nat.add_mod_right, Nat.add_div_right _ hw]
        dsimp only
        omega
      · refine Relation.ReflTransGen.head ?_ (ih (k - 1) (by omega) (by omega))
        show Near (gridPos w k) (gridPos w (k - 1))
        have e1 := Nat.div_add_mod k w
        have e2 := Nat.mod_lt k hw
        have h1 : (k - 1) / w = k / w := by
          rw [Nat.div_eq_iff hw]
          have := Nat.div_mul_le_self k w
          rw [Nat.mul_comm] at e1
          constructor
          · omega
          · omega
        have h2 : (k - 1) % w + 1 = k % w := by
          have e3 := Nat.div_add_mod (k - 1) w
          rw [h1] at e3
          omega
        unfold Near gridPos
        dsimp only
        rw [h1]
        omega
  exact (key a.1 a.2).trans (key b.1 b.2).symm

end TJ
