/-
The textbook Hamiltonian conserves the numbers of holes, up and down spins.
-/
import Verif.Lemmas.Spin

namespace TJ

open Finset

section
variable {K : Type} [Field K] {n : Nat} (I : Interactions K) (pos : Fin n → Pt)

theorem count_exch (σ : Conf n) (a b : Fin n) (o : Occ) : (exch σ a b).count o = σ.count o := count_comp σ _ o

/-- No matrix element between occupations with different numbers. -/
theorem hamEl_sector (B : BoolInteractions) {σ τ : Conf n} (o : Occ) (h : τ.count o ≠ σ.count o) : hamEl I pos B σ τ = 0 := by
  have t1 : hopEl I pos σ τ = 0 := by
    refine sum_eq_zero (fun a _ => sum_eq_zero (fun b _ => if_neg ?_))
    rintro ⟨_, _, _, rfl⟩
    exact h (count_exch ..)
  have t2 : nextEl I pos σ τ = 0 := by
    refine sum_eq_zero (fun a _ => sum_eq_zero (fun b _ => if_neg ?_))
    rintro ⟨_, _, _, rfl⟩
    exact h (count_exch ..)
  have hne : τ ≠ σ := by rintro rfl; exact h rfl
  have t3 : staticEl I pos σ τ = 0 := if_neg hne
  have t4 : repEl I pos σ τ = 0 := if_neg hne
  have t5 : flipEl I pos σ τ = 0 := by
    refine sum_eq_zero (fun a _ => sum_eq_zero (fun b _ => if_neg ?_))
    rintro ⟨_, _, _, _, _, rfl⟩
    exact h (count_exch ..)
  have t6 : sdEl I pos σ τ = 0 := by
    refine sum_eq_zero (fun a _ => sum_eq_zero (fun m _ => sum_eq_zero (fun b _ => ?_)))
    by_cases hh : σ a = .hole ∧ σ m ≠ .hole ∧ σ b = (σ m).rev ∧ Near (pos a) (pos m) ∧ Near (pos m) (pos b)
    · rw [if_pos hh]
      obtain ⟨c1, c2, c3, c4, c5⟩ := hh
      have ham : a ≠ m := near_ne pos c4
      have hmb : m ≠ b := near_ne pos c5
      have hab : a ≠ b := by
        rintro rfl
        rw [c1] at c3
        exact c2 (Occ.rev_hole_iff.1 c3.symm)
      have n1 : τ ≠ shift3 σ a m b := by
        intro e
        rw [e, shift3_perm ham hab hmb] at h
        exact h (count_comp ..)
      have n2 : τ ≠ exch σ a b := by
        intro e
        rw [e] at h
        exact h (count_exch ..)
      rw [if_neg n1, if_neg n2, sub_zero, mul_zero]
    · rw [if_neg hh]
  unfold hamEl
  rw [t1, t2, t3, t4, t5, t6]
  simp

end

end TJ
