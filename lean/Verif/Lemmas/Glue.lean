/-
Product states on a lattice that is made of two parts, and their energies.
-/
import Verif.Props.Couplings

namespace TJ

open Finset

variable {p q n : Nat}

/-- The occupation of the whole lattice made of those of the two parts. -/
def glue (e : Fin p ⊕ Fin q ≃ Fin n) (ρ : Conf p) (υ : Conf q) : Conf n := fun x => Sum.elim ρ υ (e.symm x)

@[simp] theorem glue_left (e : Fin p ⊕ Fin q ≃ Fin n) (ρ : Conf p) (υ : Conf q) (a : Fin p) : glue e ρ υ (e (.inl a)) = ρ a := by simp [glue]
@[simp] theorem glue_right (e : Fin p ⊕ Fin q ≃ Fin n) (ρ : Conf p) (υ : Conf q) (b : Fin q) : glue e ρ υ (e (.inr b)) = υ b := by simp [glue]

theorem site_cases (e : Fin p ⊕ Fin q ≃ Fin n) (x : Fin n) : (∃ a, x = e (.inl a)) ∨ ∃ b, x = e (.inr b) := by
  rcases h : e.symm x with a | b
  · exact .inl ⟨a, by rw [← h]; simp⟩
  · exact .inr ⟨b, by rw [← h]; simp⟩

/-- The product of a state of each part. -/
def prodState {K : Type} [Mul K] (e : Fin p ⊕ Fin q ≃ Fin n) (ψ : Conf p → K) (χ : Conf q → K) (σ : Conf n) : K :=
  ψ (fun a => σ (e (.inl a))) * χ (fun b => σ (e (.inr b)))

section
variable {K : Type} [Field K]

theorem prodState_glue (e : Fin p ⊕ Fin q ≃ Fin n) (ψ : Conf p → K) (χ : Conf q → K) (ρ : Conf p) (υ : Conf q) :
    prodState e ψ χ (glue e ρ υ) = ψ ρ * χ υ := by
  unfold prodState
  simp

theorem sum_glue (e : Fin p ⊕ Fin q ≃ Fin n) (F : Conf n → K) : ∑ σ, F σ = ∑ ρ, ∑ υ, F (glue e ρ υ) := by
  rw [← sum_product']
  symm
  refine sum_nbij' (fun x : Conf p × Conf q => glue e x.1 x.2) (fun σ => (fun a => σ (e (.inl a)), fun b => σ (e (.inr b)))) (by simp) (by simp)
    (by simp) ?_ (by simp)
  intro σ _
  funext x
  rcases site_cases e x with ⟨a, rfl⟩ | ⟨b, rfl⟩ <;> simp

theorem sum_parts (e : Fin p ⊕ Fin q ≃ Fin n) (f : Fin n → K) : ∑ x, f x = ∑ a, f (e (.inl a)) + ∑ b, f (e (.inr b)) := by
  rw [← e.sum_comp, Fintype.sum_sum_type]

theorem sum_parts2 (e : Fin p ⊕ Fin q ≃ Fin n) (f : Fin n → Fin n → K) : ∑ x, ∑ y, f x y =
    (∑ a, ∑ a', f (e (.inl a)) (e (.inl a'))) + (∑ b, ∑ b', f (e (.inr b)) (e (.inr b'))) +
      ((∑ a, ∑ b, f (e (.inl a)) (e (.inr b))) + ∑ b, ∑ a, f (e (.inr b)) (e (.inl a))) := by
  rw [sum_parts e]
  simp only [sum_parts e (fun y => f _ y), sum_add_distrib]
  ring

/-- Two occupations of which one has a hole at `a` and the other has none, and with the same other holes, have different numbers of holes. -/
theorem count_hole_ne {ρ ρ' : Conf p} (a : Fin p) (h1 : ∀ s, s ≠ a → (ρ s = .hole ↔ ρ' s = .hole)) (h2 : ¬ (ρ a = .hole ↔ ρ' a = .hole)) :
    ρ.count .hole ≠ ρ'.count .hole := by
  have key : ∀ {ρ ρ' : Conf p}, (∀ s, s ≠ a → (ρ s = .hole ↔ ρ' s = .hole)) → ρ a = .hole → ρ' a ≠ .hole → ρ.count .hole = ρ'.count .hole + 1 := by
    intro ρ ρ' h1 h2 h3
    unfold Conf.count
    have : (univ.filter fun s => ρ s = .hole) = insert a (univ.filter fun s => ρ' s = .hole) := by
      ext s
      simp only [mem_filter, mem_univ, true_and, mem_insert]
      by_cases hs : s = a
      · subst hs; simp [h2]
      · simp [hs, h1 s hs]
    rw [this, card_insert_of_notMem (by simp [h3])]
  by_cases h : ρ a = .hole
  · have := key h1 h (fun h' => h2 ⟨fun _ => h', fun _ => h⟩)
    omega
  · have h' : ρ' a = .hole := by
      by_contra h'
      exact h2 ⟨fun x => absurd x h, fun x => absurd x h'⟩
    have := key (fun s hs => (h1 s hs).symm) h' h
    omega

/-- A move that changes the number of holes of the first part. -/
theorem prodState_cross (e : Fin p ⊕ Fin q ≃ Fin n) {ψ : Conf p → K} {h b : Nat} (hψ : InSector h b ψ) (χ : Conf q → K) {σ τ : Conf n} (a : Fin p)
    (h1 : ∀ s, s ≠ a → (σ (e (.inl s)) = .hole ↔ τ (e (.inl s)) = .hole)) (h2 : ¬ (σ (e (.inl a)) = .hole ↔ τ (e (.inl a)) = .hole)) :
    prodState e ψ χ σ * prodState e ψ χ τ = 0 := by
  unfold prodState
  by_contra hne
  have hne1 : ψ (fun a => σ (e (.inl a))) ≠ 0 := fun hz => hne (by rw [hz]; ring)
  have hne2 : ψ (fun a => τ (e (.inl a))) ≠ 0 := fun hz => hne (by rw [hz]; ring)
  exact count_hole_ne (ρ := fun a => σ (e (.inl a))) (ρ' := fun a => τ (e (.inl a))) a h1 h2 ((hψ _ hne1).1.trans (hψ _ hne2).1.symm)

theorem inl_ne_inr (e : Fin p ⊕ Fin q ≃ Fin n) (a : Fin p) (b : Fin q) : e (.inl a) ≠ e (.inr b) := by simp

theorem glue_exch_left (e : Fin p ⊕ Fin q ≃ Fin n) (ρ : Conf p) (υ : Conf q) (a a' : Fin p) :
    exch (glue e ρ υ) (e (.inl a)) (e (.inl a')) = glue e (exch ρ a a') υ := by
  funext x
  unfold exch
  rcases site_cases e x with ⟨s, rfl⟩ | ⟨s, rfl⟩
  · rw [glue_left, Equiv.swap_apply_def, Equiv.swap_apply_def]
    simp only [EmbeddingLike.apply_eq_iff_eq, Sum.inl.injEq]
    split_ifs <;> simp
  · rw [glue_right, Equiv.swap_apply_of_ne_of_ne (inl_ne_inr e _ _).symm (inl_ne_inr e _ _).symm, glue_right]

theorem glue_exch_right (e : Fin p ⊕ Fin q ≃ Fin n) (ρ : Conf p) (υ : Conf q) (b b' : Fin q) :
    exch (glue e ρ υ) (e (.inr b)) (e (.inr b')) = glue e ρ (exch υ b b') := by
  funext x
  unfold exch
  rcases site_cases e x with ⟨s, rfl⟩ | ⟨s, rfl⟩
  · rw [glue_left, Equiv.swap_apply_of_ne_of_ne (inl_ne_inr e _ _) (inl_ne_inr e _ _), glue_left]
  · rw [glue_right, Equiv.swap_apply_def, Equiv.swap_apply_def]
    simp only [EmbeddingLike.apply_eq_iff_eq, Sum.inr.injEq]
    split_ifs <;> simp

theorem glue_shift_left (e : Fin p ⊕ Fin q ≃ Fin n) (ρ : Conf p) (υ : Conf q) (a m a' : Fin p) :
    shift3 (glue e ρ υ) (e (.inl a)) (e (.inl m)) (e (.inl a')) = glue e (shift3 ρ a m a') υ := by
  funext x
  unfold shift3
  rcases site_cases e x with ⟨s, rfl⟩ | ⟨s, rfl⟩ <;> simp

theorem glue_shift_right (e : Fin p ⊕ Fin q ≃ Fin n) (ρ : Conf p) (υ : Conf q) (a m a' : Fin q) :
    shift3 (glue e ρ υ) (e (.inr a)) (e (.inr m)) (e (.inr a')) = glue e ρ (shift3 υ a m a') := by
  funext x
  unfold shift3
  rcases site_cases e x with ⟨s, rfl⟩ | ⟨s, rfl⟩ <;> simp

/-- The exchange of a hole and an electron of different parts. -/
theorem glue_exch_cross (e : Fin p ⊕ Fin q ≃ Fin n) {ψ : Conf p → K} {h b : Nat} (hψ : InSector h b ψ) (χ : Conf q → K) (σ : Conf n) (a : Fin p) (b' : Fin q)
    (hne : ¬ (σ (e (.inl a)) = .hole ↔ σ (e (.inr b')) = .hole)) :
    prodState e ψ χ σ * prodState e ψ χ (exch σ (e (.inl a)) (e (.inr b'))) = 0 ∧
    prodState e ψ χ σ * prodState e ψ χ (exch σ (e (.inr b')) (e (.inl a))) = 0 := by
  have sym : exch σ (e (.inr b')) (e (.inl a)) = exch σ (e (.inl a)) (e (.inr b')) := by unfold exch; rw [Equiv.swap_comm]
  rw [sym, and_self]
  refine prodState_cross e hψ χ a (fun s hs => ?_) ?_
  · unfold exch
    rw [Equiv.swap_apply_of_ne_of_ne (by simpa using hs) (inl_ne_inr e _ _)]
  · unfold exch
    rw [Equiv.swap_apply_left]
    exact hne

/-- Sums of exchanges of holes and electrons. -/
theorem pair_form (e : Fin p ⊕ Fin q ≃ Fin n) {ψ : Conf p → K} {h b : Nat} (hψ : InSector h b ψ) (χ : Conf q → K)
    (w : Conf n → Fin n → Fin n → K) (wA : Conf p → Fin p → Fin p → K) (wB : Conf q → Fin q → Fin q → K)
    (hA : ∀ ρ υ a a', w (glue e ρ υ) (e (.inl a)) (e (.inl a')) = wA ρ a a') (hB : ∀ ρ υ b b', w (glue e ρ υ) (e (.inr b)) (e (.inr b')) = wB υ b b')
    (hX : ∀ σ x y, w σ x y ≠ 0 → σ x = .hole ∧ σ y ≠ .hole) :
    (∑ σ, prodState e ψ χ σ * ∑ x, ∑ y, w σ x y * prodState e ψ χ (exch σ x y)) =
      (∑ ρ, ψ ρ * ∑ a, ∑ a', wA ρ a a' * ψ (exch ρ a a')) * (∑ υ, χ υ * χ υ) +
      (∑ ρ, ψ ρ * ψ ρ) * ∑ υ, χ υ * ∑ b, ∑ b', wB υ b b' * χ (exch υ b b') := by
  rw [sum_glue e, sum_mul_sum, sum_mul_sum, ← sum_add_distrib]
  refine sum_congr rfl fun ρ _ => ?_
  rw [← sum_add_distrib]
  refine sum_congr rfl fun υ _ => ?_
  rw [sum_parts2 e]
  have c1 : ∀ a b, prodState e ψ χ (glue e ρ υ) * (w (glue e ρ υ) (e (.inl a)) (e (.inr b)) * prodState e ψ χ (exch (glue e ρ υ) (e (.inl a)) (e (.inr b)))) = 0 := by
    intro a b
    by_cases hw : w (glue e ρ υ) (e (.inl a)) (e (.inr b)) = 0
    · rw [hw]; ring
    · obtain ⟨x1, x2⟩ := hX _ _ _ hw
      have := (glue_exch_cross e hψ χ (glue e ρ υ) a b (fun h => x2 (h.1 x1))).1
      linear_combination (w (glue e ρ υ) (e (.inl a)) (e (.inr b))) * this
  have c2 : ∀ a b, prodState e ψ χ (glue e ρ υ) * (w (glue e ρ υ) (e (.inr b)) (e (.inl a)) * prodState e ψ χ (exch (glue e ρ υ) (e (.inr b)) (e (.inl a)))) = 0 := by
    intro a b
    by_cases hw : w (glue e ρ υ) (e (.inr b)) (e (.inl a)) = 0
    · rw [hw]; ring
    · obtain ⟨x1, x2⟩ := hX _ _ _ hw
      have := (glue_exch_cross e hψ χ (glue e ρ υ) a b (fun h => x2 (h.2 x1))).2
      linear_combination (w (glue e ρ υ) (e (.inr b)) (e (.inl a))) * this
  rw [mul_add, mul_add, mul_add]
  have z1 : prodState e ψ χ (glue e ρ υ) * (∑ a, ∑ b, w (glue e ρ υ) (e (.inl a)) (e (.inr b)) *
      prodState e ψ χ (exch (glue e ρ υ) (e (.inl a)) (e (.inr b)))) = 0 := by
    simp only [mul_sum]
    exact sum_eq_zero fun a _ => sum_eq_zero fun b _ => c1 a b
  have z2 : prodState e ψ χ (glue e ρ υ) * (∑ b, ∑ a, w (glue e ρ υ) (e (.inr b)) (e (.inl a)) *
      prodState e ψ χ (exch (glue e ρ υ) (e (.inr b)) (e (.inl a)))) = 0 := by
    simp only [mul_sum]
    exact sum_eq_zero fun b _ => sum_eq_zero fun a _ => c2 a b
  rw [z1, z2, add_zero, add_zero]
  simp only [glue_exch_left, glue_exch_right, prodState_glue, hA, hB]
  have l1 : (∑ a, ∑ a', wA ρ a a' * (ψ (exch ρ a a') * χ υ)) = (∑ a, ∑ a', wA ρ a a' * ψ (exch ρ a a')) * χ υ := by
    simp only [Finset.sum_mul, mul_assoc]
  have l2 : (∑ b, ∑ b', wB υ b b' * (ψ ρ * χ (exch υ b b'))) = ψ ρ * ∑ b, ∑ b', wB υ b b' * χ (exch υ b b') := by
    simp only [mul_sum]
    exact sum_congr rfl fun _ _ => sum_congr rfl fun _ _ => by ring
  rw [l1, l2]
  ring

/-- The displacement of a pair by a hole that goes from one part to the other. -/
theorem glue_shift_cross (e : Fin p ⊕ Fin q ≃ Fin n) {ψ : Conf p → K} {h b : Nat} (hψ : InSector h b ψ) (χ : Conf q → K) (σ : Conf n) (a : Fin p)
    (b' : Fin q) (m : Fin n) (hm : σ m ≠ .hole) :
    (σ (e (.inl a)) = .hole → σ (e (.inr b')) ≠ .hole →
      prodState e ψ χ σ * prodState e ψ χ (shift3 σ (e (.inl a)) m (e (.inr b'))) = 0) ∧
    (σ (e (.inr b')) = .hole → σ (e (.inl a)) ≠ .hole → m ≠ e (.inl a) →
      prodState e ψ χ σ * prodState e ψ χ (shift3 σ (e (.inr b')) m (e (.inl a))) = 0) := by
  constructor
  · intro h1 h2
    refine prodState_cross e hψ χ a (fun s hs => ?_) ?_
    · unfold shift3
      rw [if_neg (by simpa using hs)]
      split_ifs with h3 h4
      · rw [h3]; exact ⟨fun x => absurd x hm, fun x => absurd x h2⟩
      · exact absurd h4 (inl_ne_inr e _ _)
      · exact Iff.rfl
    · unfold shift3
      rw [if_pos rfl]
      exact fun hh => hm (hh.1 h1)
  · intro h1 h2 h3
    refine prodState_cross e hψ χ a (fun s hs => ?_) ?_
    · unfold shift3
      rw [if_neg (inl_ne_inr e _ _)]
      split_ifs with h4 h5
      · rw [h4]; exact ⟨fun x => absurd x hm, fun x => absurd x h2⟩
      · exact absurd h5 (by simpa using hs)
      · exact Iff.rfl
    · unfold shift3
      rw [if_neg (inl_ne_inr e _ _), if_neg (Ne.symm h3), if_pos rfl]
      exact fun hh => h2 (hh.2 h1)

theorem sd_sum (I : Interactions K) (pos : Fin n → Pt) (φ : Conf n → K) (σ : Conf n) : (∑ τ, sdEl I pos σ τ * φ τ) =
    ∑ a, ∑ b, ∑ m, (if σ a = .hole ∧ σ m ≠ .hole ∧ σ b = (σ m).rev ∧ Near (pos a) (pos m) ∧ Near (pos m) (pos b) then
      (if Aligned (pos a) (pos m) (pos b) then I.hSDpar else I.hSDper) else 0) * (φ (shift3 σ a m b) - φ (exch σ a b)) := by
  unfold sdEl
  simp only [Finset.sum_mul]
  rw [sum_comm]
  refine sum_congr rfl fun a _ => ?_
  refine Eq.trans ?_ sum_comm
  rw [sum_comm]
  refine sum_congr rfl fun m _ => ?_
  rw [sum_comm]
  refine sum_congr rfl fun b _ => ?_
  by_cases hc : σ a = .hole ∧ σ m ≠ .hole ∧ σ b = (σ m).rev ∧ Near (pos a) (pos m) ∧ Near (pos m) (pos b)
  · simp only [if_pos hc]
    generalize (if Aligned (pos a) (pos m) (pos b) then I.hSDpar else I.hSDper) = g
    simp only [mul_assoc, sub_mul, ite_mul, one_mul, zero_mul]
    rw [← mul_sum, sum_sub_distrib]
    simp
  · simp only [if_neg hc, zero_mul, sum_const_zero]

/-- Sums of displacements of pairs. -/
theorem triple_form (e : Fin p ⊕ Fin q ≃ Fin n) {ψ : Conf p → K} {h b : Nat} (hψ : InSector h b ψ) (χ : Conf q → K)
    (w : Conf n → Fin n → Fin n → Fin n → K) (wA : Conf p → Fin p → Fin p → Fin p → K) (wB : Conf q → Fin q → Fin q → Fin q → K)
    (hA : ∀ ρ υ a m a', w (glue e ρ υ) (e (.inl a)) (e (.inl m)) (e (.inl a')) = wA ρ a m a')
    (hB : ∀ ρ υ a m a', w (glue e ρ υ) (e (.inr a)) (e (.inr m)) (e (.inr a')) = wB υ a m a')
    (hmA : ∀ σ a m a', w σ (e (.inl a)) (e (.inr m)) (e (.inl a')) = 0) (hmB : ∀ σ a m a', w σ (e (.inr a)) (e (.inl m)) (e (.inr a')) = 0)
    (hX : ∀ σ x m y, w σ x m y ≠ 0 → σ x = .hole ∧ σ m ≠ .hole ∧ σ y ≠ .hole ∧ m ≠ y) :
    (∑ σ, prodState e ψ χ σ * ∑ x, ∑ y, ∑ m, w σ x m y * (prodState e ψ χ (shift3 σ x m y) - prodState e ψ χ (exch σ x y))) =
      (∑ ρ, ψ ρ * ∑ a, ∑ a', ∑ m, wA ρ a m a' * (ψ (shift3 ρ a m a') - ψ (exch ρ a a'))) * (∑ υ, χ υ * χ υ) +
      (∑ ρ, ψ ρ * ψ ρ) * ∑ υ, χ υ * ∑ b, ∑ b', ∑ m, wB υ b m b' * (χ (shift3 υ b m b') - χ (exch υ b b')) := by
  rw [sum_glue e, sum_mul_sum, sum_mul_sum, ← sum_add_distrib]
  refine sum_congr rfl fun ρ _ => ?_
  rw [← sum_add_distrib]
  refine sum_congr rfl fun υ _ => ?_
  rw [sum_parts2 e]
  set σ := glue e ρ υ with hσ
  have c1 : ∀ a b m, prodState e ψ χ σ * (w σ (e (.inl a)) m (e (.inr b)) *
      (prodState e ψ χ (shift3 σ (e (.inl a)) m (e (.inr b))) - prodState e ψ χ (exch σ (e (.inl a)) (e (.inr b))))) = 0 := by
    intro a b m
    by_cases hw : w σ (e (.inl a)) m (e (.inr b)) = 0
    · rw [hw]; ring
    · obtain ⟨x1, x2, x3, x4⟩ := hX _ _ _ _ hw
      have t1 := (glue_exch_cross e hψ χ σ a b (fun h => x3 (h.1 x1))).1
      have t2 := (glue_shift_cross e hψ χ σ a b m x2).1 x1 x3
      linear_combination (w σ (e (.inl a)) m (e (.inr b))) * (t2 - t1)
  have c2 : ∀ a b m, prodState e ψ χ σ * (w σ (e (.inr b)) m (e (.inl a)) *
      (prodState e ψ χ (shift3 σ (e (.inr b)) m (e (.inl a))) - prodState e ψ χ (exch σ (e (.inr b)) (e (.inl a))))) = 0 := by
    intro a b m
    by_cases hw : w σ (e (.inr b)) m (e (.inl a)) = 0
    · rw [hw]; ring
    · obtain ⟨x1, x2, x3, x4⟩ := hX _ _ _ _ hw
      have t1 := (glue_exch_cross e hψ χ σ a b (fun h => x3 (h.2 x1))).2
      have t2 := (glue_shift_cross e hψ χ σ a b m x2).2 x1 x3 x4
      linear_combination (w σ (e (.inr b)) m (e (.inl a))) * (t2 - t1)
  rw [mul_add, mul_add, mul_add]
  have z1 : prodState e ψ χ σ * (∑ a, ∑ b, ∑ m, w σ (e (.inl a)) m (e (.inr b)) *
      (prodState e ψ χ (shift3 σ (e (.inl a)) m (e (.inr b))) - prodState e ψ χ (exch σ (e (.inl a)) (e (.inr b))))) = 0 := by
    simp only [mul_sum]
    exact sum_eq_zero fun a _ => sum_eq_zero fun b _ => sum_eq_zero fun m _ => c1 a b m
  have z2 : prodState e ψ χ σ * (∑ b, ∑ a, ∑ m, w σ (e (.inr b)) m (e (.inl a)) *
      (prodState e ψ χ (shift3 σ (e (.inr b)) m (e (.inl a))) - prodState e ψ χ (exch σ (e (.inr b)) (e (.inl a))))) = 0 := by
    simp only [mul_sum]
    exact sum_eq_zero fun b _ => sum_eq_zero fun a _ => sum_eq_zero fun m _ => c2 a b m
  rw [z1, z2, add_zero, add_zero]
  have d1 : ∀ a a', (∑ m, w σ (e (.inl a)) m (e (.inl a')) * (prodState e ψ χ (shift3 σ (e (.inl a)) m (e (.inl a'))) -
      prodState e ψ χ (exch σ (e (.inl a)) (e (.inl a'))))) = (∑ m, wA ρ a m a' * (ψ (shift3 ρ a m a') - ψ (exch ρ a a'))) * χ υ := by
    intro a a'
    rw [sum_parts e]
    simp only [hmA, zero_mul, sum_const_zero, add_zero, hσ, hA, glue_exch_left, glue_shift_left, prodState_glue, Finset.sum_mul]
    exact sum_congr rfl fun _ _ => by ring
  have d2 : ∀ a a', (∑ m, w σ (e (.inr a)) m (e (.inr a')) * (prodState e ψ χ (shift3 σ (e (.inr a)) m (e (.inr a'))) -
      prodState e ψ χ (exch σ (e (.inr a)) (e (.inr a'))))) = ψ ρ * ∑ m, wB υ a m a' * (χ (shift3 υ a m a') - χ (exch υ a a')) := by
    intro a a'
    rw [sum_parts e]
    simp only [hmB, zero_mul, sum_const_zero, zero_add, hσ, hB, glue_exch_right, glue_shift_right, prodState_glue, mul_sum]
    exact sum_congr rfl fun _ _ => by ring
  simp only [d1, d2]
  simp only [← Finset.sum_mul, ← mul_sum]
  rw [hσ, prodState_glue]
  ring

end

end TJ
