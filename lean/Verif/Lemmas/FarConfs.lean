/-
Matrix elements between occupations that differ at many sites, and along one hop.
-/
import Verif.Props.HoppingSign

namespace TJ

open Finset

/-- Number of sites at which two occupations differ. -/
def differing {n : Nat} (σ τ : Conf n) : Nat := (univ.filter fun s => σ s ≠ τ s).card

section
variable {K : Type} [Field K] {n : Nat} (I : Interactions K) (pos : Fin n → Pt) (B : BoolInteractions)

theorem differing_self (σ : Conf n) : differing σ σ = 0 := by simp [differing]

theorem differing_comm (σ τ : Conf n) : differing σ τ = differing τ σ := by simp only [differing, ne_comm]

theorem differing_sub {σ τ : Conf n} {S : Finset (Fin n)} (h : ∀ s, s ∉ S → σ s = τ s) : differing σ τ ≤ S.card := by
  refine card_le_card fun s hs => ?_
  by_contra hc
  exact (mem_filter.1 hs).2 (h s hc)

theorem differing_exch (σ : Conf n) (a b : Fin n) : differing σ (exch σ a b) ≤ 2 :=
  (differing_sub (S := {a, b}) fun s hs => by
    simp only [mem_insert, mem_singleton, not_or] at hs
    exact (exch_other σ hs.1 hs.2).symm).trans card_le_two

theorem differing_shift3 (σ : Conf n) (a m b : Fin n) : differing σ (shift3 σ a m b) ≤ 3 :=
  (differing_sub (S := {a, m, b}) fun s hs => by
    simp only [mem_insert, mem_singleton, not_or] at hs
    unfold shift3
    rw [if_neg hs.1, if_neg hs.2.1, if_neg hs.2.2]).trans card_le_three

/-- Occupations that differ at four sites or more are not connected. -/
theorem hamEl_far {σ τ : Conf n} (h : 4 ≤ differing σ τ) : hamEl I pos B σ τ = 0 := by
  have hne : ¬ τ = σ := by
    rintro rfl
    rw [differing_self] at h
    omega
  have hx : ∀ a b, ¬ τ = exch σ a b := by
    rintro a b rfl
    have := differing_exch σ a b
    omega
  have h3 : ∀ a m b, ¬ τ = shift3 σ a m b := by
    rintro a m b rfl
    have := differing_shift3 σ a m b
    omega
  simp [hamEl, hopEl, nextEl, staticEl, flipEl, sdEl, repEl, hne, hx, h3]

/-- The hopping element of a hole and a neighbouring electron. -/
theorem hopEl_exch {σ : Conf n} {a b : Fin n} (ha : σ a = .hole) (hb : σ b ≠ .hole) (hn : Near (pos a) (pos b)) :
    hopEl I pos σ (exch σ a b) = I.t := by
  have inj : ∀ a' b', σ a' = .hole → σ b' ≠ .hole → exch σ a b = exch σ a' b' → a' = a ∧ b' = b := by
    intro a' b' ha' hb' h
    have f1 := congrFun h a'
    have f2 := congrFun h b'
    rw [exch_left] at f1
    rw [exch_right, ha'] at f2
    constructor
    · by_contra hne
      have h2 : a' ≠ b := fun e => hb (e ▸ ha')
      rw [exch_other σ hne h2, ha'] at f1
      exact hb' f1.symm
    · by_contra hne
      have h2 : b' ≠ a := fun e => hb' (e ▸ ha)
      rw [exch_other σ h2 hne] at f2
      exact hb' f2
  unfold hopEl
  rw [sum_eq_single a, sum_eq_single b]
  · rw [if_pos ⟨ha, hb, hn, rfl⟩]
  · intro b' _ hb'
    rw [if_neg]
    rintro ⟨_, h2, _, h4⟩
    exact hb' (inj a b' ha h2 h4).2
  · simp
  · intro a' _ ha'
    refine sum_eq_zero fun b' _ => ?_
    rw [if_neg]
    rintro ⟨h1, h2, _, h4⟩
    exact ha' (inj a' b' h1 h2 h4).1
  · simp

variable [CharZero K]

/-- Along one hop the element of the Hamiltonian is that of the hopping alone. -/
theorem hamEl_exch (hB : B.bt = true) {σ : Conf n} {a b : Fin n} (ha : σ a = .hole) (hb : σ b ≠ .hole) (hn : Near (pos a) (pos b)) :
    hamEl I pos B σ (exch σ a b) = I.t := by
  have h1 := hamEl_oppositeT I pos B σ (exch σ a b)
  rw [holeSign_exch pos ha hb, colourSign_near hn] at h1
  have h2 := hopEl_exch I pos ha hb hn
  have h3 : hopEl (oppositeT I) pos σ (exch σ a b) = - I.t := hopEl_exch (oppositeT I) pos ha hb hn
  unfold hamEl at h1 ⊢
  rw [hB, if_pos rfl, if_pos rfl, h2, h3] at h1
  rw [hB, if_pos rfl, h2]
  have t3 : staticEl (oppositeT I) pos = staticEl I pos := rfl
  have t4 : repEl (oppositeT I) pos = repEl I pos := rfl
  have t5 : flipEl (oppositeT I) pos = flipEl I pos := rfl
  have t6 : sdEl (oppositeT I) pos = sdEl I pos := rfl
  have t7 : nextEl (oppositeT I) pos = nextEl I pos := rfl
  rw [t3, t4, t5, t6, t7] at h1
  have two : (2 : K) ≠ 0 := two_ne_zero
  apply mul_left_cancel₀ two
  linear_combination h1

end

end TJ
