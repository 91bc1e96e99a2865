/-
A lattice made of two parts that touch along one cut, and the energy of a product state on it.
-/
import Verif.Lemmas.Glue
import Verif.Props.SumRule

namespace TJ

open Finset

variable {p q n : Nat}

/-- The sites of the lattice are those of the two parts, moved by `u` and `v`; the order of the sites inside a part is kept, and a site of
one part has at most one neighbour in the other. -/
structure TwoParts (e : Fin p ⊕ Fin q ≃ Fin n) (pos : Fin n → Pt) (posA : Fin p → Pt) (posB : Fin q → Pt) (u v : Pt) : Prop where
  left : ∀ a, pos (e (.inl a)) = ((posA a).1 + u.1, (posA a).2 + u.2)
  right : ∀ b, pos (e (.inr b)) = ((posB b).1 + v.1, (posB b).2 + v.2)
  lt_left : ∀ a a', e (.inl a) < e (.inl a') ↔ a < a'
  lt_right : ∀ b b', e (.inr b) < e (.inr b') ↔ b < b'
  cut_left : ∀ a a' b, Near (pos (e (.inl a))) (pos (e (.inr b))) → Near (pos (e (.inr b))) (pos (e (.inl a'))) → a = a'
  cut_right : ∀ a b b', Near (pos (e (.inr b))) (pos (e (.inl a))) → Near (pos (e (.inl a))) (pos (e (.inr b'))) → b = b'

section
variable {e : Fin p ⊕ Fin q ≃ Fin n} {pos : Fin n → Pt} {posA : Fin p → Pt} {posB : Fin q → Pt} {u v : Pt}

namespace TwoParts
variable (h : TwoParts e pos posA posB u v)
include h

theorem nearA (a a' : Fin p) : Near (pos (e (.inl a))) (pos (e (.inl a'))) ↔ Near (posA a) (posA a') := by
  rw [h.left, h.left]; unfold Near; simp only [add_sub_add_right_eq_sub]

theorem nearB (b b' : Fin q) : Near (pos (e (.inr b))) (pos (e (.inr b'))) ↔ Near (posB b) (posB b') := by
  rw [h.right, h.right]; unfold Near; simp only [add_sub_add_right_eq_sub]

theorem diagA (a a' : Fin p) : Diagonal (pos (e (.inl a))) (pos (e (.inl a'))) ↔ Diagonal (posA a) (posA a') := by
  rw [h.left, h.left]; unfold Diagonal; simp only [add_sub_add_right_eq_sub]

theorem diagB (b b' : Fin q) : Diagonal (pos (e (.inr b))) (pos (e (.inr b'))) ↔ Diagonal (posB b) (posB b') := by
  rw [h.right, h.right]; unfold Diagonal; simp only [add_sub_add_right_eq_sub]

theorem alignA (a a' a'' : Fin p) : Aligned (pos (e (.inl a))) (pos (e (.inl a'))) (pos (e (.inl a''))) ↔ Aligned (posA a) (posA a') (posA a'') := by
  rw [h.left, h.left, h.left]; unfold Aligned; simp only [add_left_inj]

theorem alignB (b b' b'' : Fin q) : Aligned (pos (e (.inr b))) (pos (e (.inr b'))) (pos (e (.inr b''))) ↔ Aligned (posB b) (posB b') (posB b'') := by
  rw [h.right, h.right, h.right]; unfold Aligned; simp only [add_left_inj]

theorem lineA (a a' : Fin p) : ((pos (e (.inl a))).1 = (pos (e (.inl a'))).1 ∨ (pos (e (.inl a))).2 = (pos (e (.inl a'))).2) ↔
    ((posA a).1 = (posA a').1 ∨ (posA a).2 = (posA a').2) := by
  rw [h.left, h.left]; simp only [add_left_inj]

theorem lineB (b b' : Fin q) : ((pos (e (.inr b))).1 = (pos (e (.inr b'))).1 ∨ (pos (e (.inr b))).2 = (pos (e (.inr b'))).2) ↔
    ((posB b).1 = (posB b').1 ∨ (posB b).2 = (posB b').2) := by
  rw [h.right, h.right]; simp only [add_left_inj]

/-- Two different sites of the first part with a common neighbour have one in the first part. -/
theorem midA {a a' : Fin p} (hne : a ≠ a') : (∃ m, Near (pos (e (.inl a))) (pos m) ∧ Near (pos m) (pos (e (.inl a')))) ↔
    ∃ m, Near (posA a) (posA m) ∧ Near (posA m) (posA a') := by
  constructor
  · rintro ⟨m, h1, h2⟩
    rcases site_cases e m with ⟨m, rfl⟩ | ⟨m, rfl⟩
    · exact ⟨m, (h.nearA _ _).1 h1, (h.nearA _ _).1 h2⟩
    · exact absurd (h.cut_left _ _ _ h1 h2) hne
  · rintro ⟨m, h1, h2⟩
    exact ⟨_, (h.nearA _ _).2 h1, (h.nearA _ _).2 h2⟩

theorem midB {b b' : Fin q} (hne : b ≠ b') : (∃ m, Near (pos (e (.inr b))) (pos m) ∧ Near (pos m) (pos (e (.inr b')))) ↔
    ∃ m, Near (posB b) (posB m) ∧ Near (posB m) (posB b') := by
  constructor
  · rintro ⟨m, h1, h2⟩
    rcases site_cases e m with ⟨m, rfl⟩ | ⟨m, rfl⟩
    · exact absurd (h.cut_right _ _ _ h1 h2) hne
    · exact ⟨m, (h.nearB _ _).1 h1, (h.nearB _ _).1 h2⟩
  · rintro ⟨m, h1, h2⟩
    exact ⟨_, (h.nearB _ _).2 h1, (h.nearB _ _).2 h2⟩

end TwoParts

section field
variable {K : Type} [Field K]

theorem hop_joined (h : TwoParts e pos posA posB u v) {ψ : Conf p → K} {hA bA : Nat} (hψ : InSector hA bA ψ) (χ : Conf q → K) (I : Interactions K) :
    (∑ σ, prodState e ψ χ σ * ∑ τ, hopEl I pos σ τ * prodState e ψ χ τ) =
      (∑ ρ, ψ ρ * ∑ τ, hopEl I posA ρ τ * ψ τ) * (∑ υ, χ υ * χ υ) + (∑ ρ, ψ ρ * ψ ρ) * ∑ υ, χ υ * ∑ τ, hopEl I posB υ τ * χ τ := by
  simp only [hop_sum]
  refine pair_form e hψ χ _ (fun ρ a b => if ρ a = .hole ∧ ρ b ≠ .hole ∧ Near (posA a) (posA b) then I.t else 0)
    (fun υ a b => if υ a = .hole ∧ υ b ≠ .hole ∧ Near (posB a) (posB b) then I.t else 0) ?_ ?_ ?_
  · intro ρ υ a a'
    simp only [glue_left, h.nearA]
  · intro ρ υ a a'
    simp only [glue_right, h.nearB]
  · intro σ x y hw
    by_contra hc
    refine hw (if_neg fun hh => hc ⟨hh.1, hh.2.1⟩)

theorem next_joined (h : TwoParts e pos posA posB u v) {ψ : Conf p → K} {hA bA : Nat} (hψ : InSector hA bA ψ) (χ : Conf q → K) (I : Interactions K) :
    (∑ σ, prodState e ψ χ σ * ∑ τ, nextEl I pos σ τ * prodState e ψ χ τ) =
      (∑ ρ, ψ ρ * ∑ τ, nextEl I posA ρ τ * ψ τ) * (∑ υ, χ υ * χ υ) + (∑ ρ, ψ ρ * ψ ρ) * ∑ υ, χ υ * ∑ τ, nextEl I posB υ τ * χ τ := by
  simp only [next_sum]
  refine pair_form e hψ χ _ (fun ρ a b => if ρ a = .hole ∧ ρ b ≠ .hole ∧ (∃ m, Near (posA a) (posA m) ∧ Near (posA m) (posA b)) then
      (if (posA a).1 = (posA b).1 ∨ (posA a).2 = (posA b).2 then I.tnNNN else I.tNNN) else 0)
    (fun υ a b => if υ a = .hole ∧ υ b ≠ .hole ∧ (∃ m, Near (posB a) (posB m) ∧ Near (posB m) (posB b)) then
      (if (posB a).1 = (posB b).1 ∨ (posB a).2 = (posB b).2 then I.tnNNN else I.tNNN) else 0) ?_ ?_ ?_
  · intro ρ υ a a'
    simp only [glue_left, h.lineA]
    by_cases hne : a = a'
    · subst hne
      rw [if_neg (fun hh => hh.2.1 hh.1), if_neg (fun hh => hh.2.1 hh.1)]
    · simp only [h.midA hne]
  · intro ρ υ a a'
    simp only [glue_right, h.lineB]
    by_cases hne : a = a'
    · subst hne
      rw [if_neg (fun hh => hh.2.1 hh.1), if_neg (fun hh => hh.2.1 hh.1)]
    · simp only [h.midB hne]
  · intro σ x y hw
    by_contra hc
    refine hw (if_neg fun hh => hc ⟨hh.1, hh.2.1⟩)

theorem sd_joined (h : TwoParts e pos posA posB u v) {ψ : Conf p → K} {hA bA : Nat} (hψ : InSector hA bA ψ) (χ : Conf q → K) (I : Interactions K) :
    (∑ σ, prodState e ψ χ σ * ∑ τ, sdEl I pos σ τ * prodState e ψ χ τ) =
      (∑ ρ, ψ ρ * ∑ τ, sdEl I posA ρ τ * ψ τ) * (∑ υ, χ υ * χ υ) + (∑ ρ, ψ ρ * ψ ρ) * ∑ υ, χ υ * ∑ τ, sdEl I posB υ τ * χ τ := by
  have rev_ne : ∀ o : Occ, o ≠ .hole → o.rev ≠ .hole := by decide
  simp only [sd_sum]
  refine triple_form e hψ χ
    (fun σ a m b => if σ a = .hole ∧ σ m ≠ .hole ∧ σ b = (σ m).rev ∧ Near (pos a) (pos m) ∧ Near (pos m) (pos b) then
      (if Aligned (pos a) (pos m) (pos b) then I.hSDpar else I.hSDper) else 0)
    (fun σ a m b => if σ a = .hole ∧ σ m ≠ .hole ∧ σ b = (σ m).rev ∧ Near (posA a) (posA m) ∧ Near (posA m) (posA b) then
      (if Aligned (posA a) (posA m) (posA b) then I.hSDpar else I.hSDper) else 0)
    (fun σ a m b => if σ a = .hole ∧ σ m ≠ .hole ∧ σ b = (σ m).rev ∧ Near (posB a) (posB m) ∧ Near (posB m) (posB b) then
      (if Aligned (posB a) (posB m) (posB b) then I.hSDpar else I.hSDper) else 0) ?_ ?_ ?_ ?_ ?_
  · intro ρ υ a m a'
    simp only [glue_left, h.nearA, h.alignA]
  · intro ρ υ a m a'
    simp only [glue_right, h.nearB, h.alignB]
  · intro σ a m a'
    refine if_neg fun hh => ?_
    obtain ⟨h1, h2, h3, h4, h5⟩ := hh
    have := h.cut_left _ _ _ h4 h5
    subst this
    rw [h1] at h3
    exact rev_ne _ h2 h3.symm
  · intro σ a m a'
    refine if_neg fun hh => ?_
    obtain ⟨h1, h2, h3, h4, h5⟩ := hh
    have := h.cut_right _ _ _ h4 h5
    subst this
    rw [h1] at h3
    exact rev_ne _ h2 h3.symm
  · intro σ x m y hw
    have hc : σ x = .hole ∧ σ m ≠ .hole ∧ σ y = (σ m).rev ∧ Near (pos x) (pos m) ∧ Near (pos m) (pos y) := by
      by_contra hc
      exact hw (if_neg hc)
    obtain ⟨h1, h2, h3, h4, h5⟩ := hc
    refine ⟨h1, h2, h3 ▸ rev_ne _ h2, ?_⟩
    rintro rfl
    unfold Near at h5
    omega

/-- A sum over the pairs of sites of the whole lattice. -/
theorem ordered_parts (h : TwoParts e pos posA posB u v) (g : Fin n → Fin n → K) (hg : ∀ x y, g x y = g y x) :
    (∑ x, ∑ y, if x < y then g x y else 0) = (∑ a, ∑ a', if a < a' then g (e (.inl a)) (e (.inl a')) else 0) +
      (∑ b, ∑ b', if b < b' then g (e (.inr b)) (e (.inr b')) else 0) + ∑ a, ∑ b, g (e (.inl a)) (e (.inr b)) := by
  rw [sum_parts2 e]
  simp only [h.lt_left, h.lt_right]
  congr 1
  rw [sum_comm (s := univ (α := Fin q)), ← sum_add_distrib]
  refine sum_congr rfl fun a _ => ?_
  rw [← sum_add_distrib]
  refine sum_congr rfl fun b _ => ?_
  rcases lt_or_gt_of_ne (inl_ne_inr e a b) with hl | hl
  · rw [if_pos hl, if_neg hl.not_gt, add_zero]
  · rw [if_pos hl, if_neg hl.not_gt, zero_add, hg]

end field

section ordered
variable {K : Type} [Field K] [LinearOrder K] [IsStrictOrderedRing K]

/-- The pairs of neighbours of different parts. -/
def crossNear (e : Fin p ⊕ Fin q ≃ Fin n) (pos : Fin n → Pt) : Nat :=
  (univ.filter fun x : Fin p × Fin q => Near (pos (e (.inl x.1))) (pos (e (.inr x.2)))).card

/-- The diagonal pairs of different parts. -/
def crossDiag (e : Fin p ⊕ Fin q ≃ Fin n) (pos : Fin n → Pt) : Nat :=
  (univ.filter fun x : Fin p × Fin q => Diagonal (pos (e (.inl x.1))) (pos (e (.inr x.2)))).card

theorem near_swap (x y : Pt) : Near x y ↔ Near y x := by unfold Near; omega
theorem diag_swap (x y : Pt) : Diagonal x y ↔ Diagonal y x := by unfold Diagonal; omega

theorem cross_sum (P : Fin p → Fin q → Prop) [∀ a b, Decidable (P a b)] (x : K) :
    (∑ a, ∑ b, if P a b then x else 0) = ((univ.filter fun y : Fin p × Fin q => P y.1 y.2).card : K) * x := by
  rw [← sum_product', ← sum_filter, sum_const, nsmul_eq_mul]
  rfl

theorem card_near_parts (h : TwoParts e pos posA posB u v) :
    (nearPairs pos).card = (nearPairs posA).card + (nearPairs posB).card + crossNear e pos := by
  have h1 := ordered_parts (K := ℚ) h (fun x y => if Near (pos x) (pos y) then 1 else 0) (fun x y => by simp only [near_swap (pos x)])
  simp only [← ite_and, h.nearA, h.nearB, pair_sum, cross_sum, mul_one] at h1
  exact_mod_cast h1

theorem card_diag_parts (h : TwoParts e pos posA posB u v) :
    (diagonalPairs pos).card = (diagonalPairs posA).card + (diagonalPairs posB).card + crossDiag e pos := by
  have h1 := ordered_parts (K := ℚ) h (fun x y => if Diagonal (pos x) (pos y) then 1 else 0) (fun x y => by simp only [diag_swap (pos x)])
  simp only [← ite_and, h.diagA, h.diagB, pair_sum, cross_sum, mul_one] at h1
  exact_mod_cast h1

/-- What the repulsions of holes of different parts can add. -/
def crossCost (e : Fin p ⊕ Fin q ≃ Fin n) (pos : Fin n → Pt) (I : Interactions K) : K :=
  crossNear e pos * max I.VNN 0 + crossDiag e pos * max I.VNNNper 0

theorem crossCost_nonneg (e : Fin p ⊕ Fin q ≃ Fin n) (pos : Fin n → Pt) (I : Interactions K) : 0 ≤ crossCost e pos I :=
  add_nonneg (mul_nonneg (Nat.cast_nonneg _) (le_max_right _ _)) (mul_nonneg (Nat.cast_nonneg _) (le_max_right _ _))

theorem norm_prod (e : Fin p ⊕ Fin q ≃ Fin n) (ψ : Conf p → K) (χ : Conf q → K) :
    (∑ σ, prodState e ψ χ σ * prodState e ψ χ σ) = (∑ ρ, ψ ρ * ψ ρ) * ∑ υ, χ υ * χ υ := by
  rw [sum_glue e, sum_mul_sum]
  refine sum_congr rfl fun ρ _ => sum_congr rfl fun υ _ => ?_
  rw [prodState_glue]; ring

/-- The energy of a diagonal term. -/
theorem diag_parts (e : Fin p ⊕ Fin q ≃ Fin n) (ψ : Conf p → K) (χ : Conf q → K) (f : Conf n → K) (fA : Conf p → K) (fB : Conf q → K) (X : K)
    (hf : ∀ ρ υ, ψ ρ ≠ 0 → χ υ ≠ 0 → f (glue e ρ υ) ≤ fA ρ + fB υ + X) :
    (∑ σ, f σ * (prodState e ψ χ σ * prodState e ψ χ σ)) ≤
      (∑ ρ, fA ρ * (ψ ρ * ψ ρ)) * (∑ υ, χ υ * χ υ) + (∑ ρ, ψ ρ * ψ ρ) * (∑ υ, fB υ * (χ υ * χ υ)) +
        X * ((∑ ρ, ψ ρ * ψ ρ) * ∑ υ, χ υ * χ υ) := by
  rw [sum_glue e, sum_mul_sum, sum_mul_sum, sum_mul_sum, ← sum_add_distrib, mul_sum, ← sum_add_distrib]
  refine sum_le_sum fun ρ _ => ?_
  rw [← sum_add_distrib, mul_sum, ← sum_add_distrib]
  refine sum_le_sum fun υ _ => ?_
  rw [prodState_glue]
  by_cases h1 : ψ ρ = 0
  · rw [h1]; simp
  by_cases h2 : χ υ = 0
  · rw [h2]; simp
  have h3 := mul_le_mul_of_nonneg_right (hf ρ υ h1 h2) (mul_self_nonneg (ψ ρ * χ υ))
  linarith

theorem count_zero {σ : Conf n} {o : Occ} (h : σ.count o = 0) (s : Fin n) : σ s ≠ o := by
  unfold Conf.count at h
  rw [card_eq_zero, filter_eq_empty_iff] at h
  exact h (mem_univ s)

theorem rep_joined (h : TwoParts e pos posA posB u v) {ψ : Conf p → K} {hA bA : Nat} (hψ : InSector hA bA ψ) {χ : Conf q → K} {hB bB : Nat}
    (hχ : InSector hB bB χ) (I : Interactions K) (X : K) (hX : (hA = 0 ∨ hB = 0) ∧ X = 0 ∨ X = crossCost e pos I) :
    (∑ σ, prodState e ψ χ σ * ∑ τ, repEl I pos σ τ * prodState e ψ χ τ) ≤
      (∑ ρ, ψ ρ * ∑ τ, repEl I posA ρ τ * ψ τ) * (∑ υ, χ υ * χ υ) + (∑ ρ, ψ ρ * ψ ρ) * (∑ υ, χ υ * ∑ τ, repEl I posB υ τ * χ τ) +
        X * ((∑ ρ, ψ ρ * ψ ρ) * ∑ υ, χ υ * χ υ) := by
  unfold repEl
  rw [diag_form, diag_form, diag_form]
  refine diag_parts e ψ χ _ _ _ X fun ρ υ hρ hυ => ?_
  have h1 := ordered_parts (K := K) h (fun x y => if glue e ρ υ x = .hole ∧ glue e ρ υ y = .hole then
    (if Near (pos x) (pos y) then I.VNN else 0) + (if Diagonal (pos x) (pos y) then I.VNNNper else 0) else 0)
    (fun x y => by simp only [near_swap (pos x), diag_swap (pos x), and_comm])
  simp only [← ite_and, h.nearA, h.nearB, h.diagA, h.diagB, glue_left, glue_right] at h1
  rw [h1]
  refine add_le_add le_rfl ?_
  rcases hX with ⟨h0, rfl⟩ | rfl
  · refine le_of_eq (sum_eq_zero fun a _ => sum_eq_zero fun b _ => if_neg ?_)
    rintro ⟨x1, x2⟩
    rcases h0 with h0 | h0
    · exact count_zero ((hψ ρ hρ).1.trans h0) a x1
    · exact count_zero ((hχ υ hυ).1.trans h0) b x2
  · unfold crossCost crossNear crossDiag
    rw [← cross_sum (K := K) (fun a b => Near (pos (e (.inl a))) (pos (e (.inr b)))), ← cross_sum (K := K) (fun a b => Diagonal (pos (e (.inl a))) (pos (e (.inr b)))),
      ← sum_add_distrib]
    refine sum_le_sum fun a _ => ?_
    rw [← sum_add_distrib]
    refine sum_le_sum fun b _ => ?_
    have m1 := le_max_left I.VNN 0
    have m2 := le_max_right I.VNN 0
    have m3 := le_max_left I.VNNNper 0
    have m4 := le_max_right I.VNNNper 0
    split_ifs <;> linarith

/-- The exchange coupling of a bond grows with the holes next to it. -/
def Growing (I : Interactions K) : Prop := 0 ≤ I.J ∧ I.J ≤ I.Jhper ∧ I.Jhper ≤ I.Jhpar

theorem Growing.nonneg {I : Interactions K} (hI : Growing I) (σ : Conf n) (x y : Fin n) : 0 ≤ Jeff I pos σ x y := by
  obtain ⟨h1, h2, h3⟩ := hI
  unfold Jeff
  split_ifs <;> linarith

theorem Growing.left {I : Interactions K} (hI : Growing I) (h : TwoParts e pos posA posB u v) (ρ : Conf p) (υ : Conf q) (a a' : Fin p) :
    Jeff I posA ρ a a' ≤ Jeff I pos (glue e ρ υ) (e (.inl a)) (e (.inl a')) := by
  obtain ⟨h1, h2, h3⟩ := hI
  have i1 : HoleInline posA ρ a a' → HoleInline pos (glue e ρ υ) (e (.inl a)) (e (.inl a')) := by
    rintro ⟨x, x1, x2, x3⟩
    exact ⟨e (.inl x), by simpa using x1, by simpa only [h.nearA] using x2, by simpa only [h.alignA] using x3⟩
  have i2 : HoleNext posA ρ a a' → HoleNext pos (glue e ρ υ) (e (.inl a)) (e (.inl a')) := by
    rintro ⟨x, x1, x2⟩
    exact ⟨e (.inl x), by simpa using x1, by simpa only [h.nearA] using x2⟩
  unfold Jeff
  split_ifs <;> first | linarith | (exfalso; tauto)

theorem Growing.right {I : Interactions K} (hI : Growing I) (h : TwoParts e pos posA posB u v) (ρ : Conf p) (υ : Conf q) (a a' : Fin q) :
    Jeff I posB υ a a' ≤ Jeff I pos (glue e ρ υ) (e (.inr a)) (e (.inr a')) := by
  obtain ⟨h1, h2, h3⟩ := hI
  have i1 : HoleInline posB υ a a' → HoleInline pos (glue e ρ υ) (e (.inr a)) (e (.inr a')) := by
    rintro ⟨x, x1, x2, x3⟩
    exact ⟨e (.inr x), by simpa using x1, by simpa only [h.nearB] using x2, by simpa only [h.alignB] using x3⟩
  have i2 : HoleNext posB υ a a' → HoleNext pos (glue e ρ υ) (e (.inr a)) (e (.inr a')) := by
    rintro ⟨x, x1, x2⟩
    exact ⟨e (.inr x), by simpa using x1, by simpa only [h.nearB] using x2⟩
  unfold Jeff
  split_ifs <;> first | linarith | (exfalso; tauto)

theorem spin_joined (h : TwoParts e pos posA posB u v) (ψ : Conf p → K) (χ : Conf q → K) {I : Interactions K} (hI : Growing I) :
    (∑ σ, prodState e ψ χ σ * ∑ τ, (staticEl I pos σ τ + flipEl I pos σ τ) * prodState e ψ χ τ) ≤
      (∑ ρ, ψ ρ * ∑ τ, (staticEl I posA ρ τ + flipEl I posA ρ τ) * ψ τ) * (∑ υ, χ υ * χ υ) +
        (∑ ρ, ψ ρ * ψ ρ) * (∑ υ, χ υ * ∑ τ, (staticEl I posB υ τ + flipEl I posB υ τ) * χ τ) := by
  have f0 := spin_form pos I (prodState e ψ χ)
  have fA := spin_form posA I ψ
  have fB := spin_form posB I χ
  have pos0 : ∀ x y (σ : Conf n), 0 ≤ bondWeight pos I x y σ * (prodState e ψ χ (exch σ x y) - prodState e ψ χ σ) ^ 2 := by
    intro x y σ
    refine mul_nonneg ?_ (sq_nonneg _)
    unfold bondWeight
    split_ifs
    · exact div_nonneg (hI.nonneg _ _ _) zero_le_two
    · exact le_rfl
  have wA : ∀ a a' ρ υ, bondWeight posA I a a' ρ ≤ bondWeight pos I (e (.inl a)) (e (.inl a')) (glue e ρ υ) := by
    intro a a' ρ υ
    unfold bondWeight
    simp only [h.lt_left, h.nearA, glue_left]
    split_ifs
    · exact div_le_div_of_nonneg_right (hI.left h ρ υ a a') zero_le_two
    · exact le_rfl
  have wB : ∀ a a' ρ υ, bondWeight posB I a a' υ ≤ bondWeight pos I (e (.inr a)) (e (.inr a')) (glue e ρ υ) := by
    intro a a' ρ υ
    unfold bondWeight
    simp only [h.lt_right, h.nearB, glue_right]
    split_ifs
    · exact div_le_div_of_nonneg_right (hI.right h ρ υ a a') zero_le_two
    · exact le_rfl
  have key : (∑ a, ∑ b, ∑ σ, bondWeight posA I a b σ * (ψ (exch σ a b) - ψ σ) ^ 2) * (∑ υ, χ υ * χ υ) +
      (∑ ρ, ψ ρ * ψ ρ) * (∑ a, ∑ b, ∑ σ, bondWeight posB I a b σ * (χ (exch σ a b) - χ σ) ^ 2) ≤
      ∑ x, ∑ y, ∑ σ, bondWeight pos I x y σ * (prodState e ψ χ (exch σ x y) - prodState e ψ χ σ) ^ 2 := by
    rw [sum_parts2 e]
    refine le_trans ?_ (le_add_of_nonneg_right (add_nonneg (sum_nonneg fun _ _ => sum_nonneg fun _ _ => sum_nonneg fun _ _ => pos0 _ _ _)
      (sum_nonneg fun _ _ => sum_nonneg fun _ _ => sum_nonneg fun _ _ => pos0 _ _ _)))
    refine add_le_add ?_ ?_
    · rw [Finset.sum_mul]
      refine sum_le_sum fun a _ => ?_
      rw [Finset.sum_mul]
      refine sum_le_sum fun a' _ => ?_
      rw [sum_mul_sum, sum_glue e]
      refine sum_le_sum fun ρ _ => sum_le_sum fun υ _ => ?_
      rw [glue_exch_left, prodState_glue, prodState_glue]
      have := mul_le_mul_of_nonneg_right (wA a a' ρ υ) (sq_nonneg (ψ (exch ρ a a') * χ υ - ψ ρ * χ υ))
      refine le_trans (le_of_eq ?_) this
      ring
    · rw [mul_sum]
      refine sum_le_sum fun a _ => ?_
      rw [mul_sum]
      refine sum_le_sum fun a' _ => ?_
      rw [sum_mul_sum, sum_glue e]
      refine sum_le_sum fun ρ _ => sum_le_sum fun υ _ => ?_
      rw [glue_exch_right, prodState_glue, prodState_glue]
      have := mul_le_mul_of_nonneg_right (wB a a' ρ υ) (sq_nonneg (ψ ρ * χ (exch υ a a') - ψ ρ * χ υ))
      refine le_trans (le_of_eq ?_) this
      ring
  set SA := ∑ ρ, ψ ρ * ∑ τ, (staticEl I posA ρ τ + flipEl I posA ρ τ) * ψ τ
  set SB := ∑ υ, χ υ * ∑ τ, (staticEl I posB υ τ + flipEl I posB υ τ) * χ τ
  have eA : (∑ a, ∑ b, ∑ σ, bondWeight posA I a b σ * (ψ (exch σ a b) - ψ σ) ^ 2) = - (2 * SA) := by rw [fA]; ring
  have eB : (∑ a, ∑ b, ∑ σ, bondWeight posB I a b σ * (χ (exch σ a b) - χ σ) ^ 2) = - (2 * SB) := by rw [fB]; ring
  rw [eA, eB] at key
  linarith

theorem static_joined (h : TwoParts e pos posA posB u v) (ψ : Conf p → K) (χ : Conf q → K) {I : Interactions K} (hI : Growing I) :
    (∑ σ, prodState e ψ χ σ * ∑ τ, staticEl I pos σ τ * prodState e ψ χ τ) ≤
      (∑ ρ, ψ ρ * ∑ τ, staticEl I posA ρ τ * ψ τ) * (∑ υ, χ υ * χ υ) +
        (∑ ρ, ψ ρ * ψ ρ) * (∑ υ, χ υ * ∑ τ, staticEl I posB υ τ * χ τ) := by
  have val4 : ∀ x y : Occ, x ≠ .hole → y ≠ .hole → (x.val * y.val - 1 / 4 : K) ≤ 0 := by
    intro x y hx hy
    cases x <;> cases y <;> first | exact absurd rfl hx | exact absurd rfl hy | (simp only [Occ.val]; norm_num)
  unfold staticEl
  rw [diag_form, diag_form, diag_form]
  refine le_trans (diag_parts e ψ χ _ _ _ 0 fun ρ υ _ _ => ?_) (le_of_eq (by rw [zero_mul, add_zero]))
  rw [sum_parts2 e, add_zero]
  refine le_trans (add_le_of_nonpos_right (add_nonpos ?_ ?_)) (add_le_add ?_ ?_)
  · refine sum_nonpos fun a _ => sum_nonpos fun b _ => ?_
    split_ifs with hc
    · exact mul_nonpos_of_nonneg_of_nonpos (hI.nonneg _ _ _) (val4 _ _ hc.2.2.1 hc.2.2.2)
    · exact le_rfl
  · refine sum_nonpos fun a _ => sum_nonpos fun b _ => ?_
    split_ifs with hc
    · exact mul_nonpos_of_nonneg_of_nonpos (hI.nonneg _ _ _) (val4 _ _ hc.2.2.1 hc.2.2.2)
    · exact le_rfl
  · refine sum_le_sum fun a _ => sum_le_sum fun b _ => ?_
    simp only [h.lt_left, h.nearA, glue_left]
    split_ifs with hc
    · exact mul_le_mul_of_nonpos_right (hI.left h ρ υ a b) (val4 _ _ hc.2.2.1 hc.2.2.2)
    · exact le_rfl
  · refine sum_le_sum fun a _ => sum_le_sum fun b _ => ?_
    simp only [h.lt_right, h.nearB, glue_right]
    split_ifs with hc
    · exact mul_le_mul_of_nonpos_right (hI.right h ρ υ a b) (val4 _ _ hc.2.2.1 hc.2.2.2)
    · exact le_rfl

/-- The energy of a product state is at most that of its factors, plus the cost of the repulsions across the cut. -/
theorem form_joined (h : TwoParts e pos posA posB u v) {ψ : Conf p → K} {hA bA : Nat} (hψ : InSector hA bA ψ) {χ : Conf q → K} {hB bB : Nat}
    (hχ : InSector hB bB χ) {I : Interactions K} (hI : Growing I) (B : BoolInteractions) (hBz : B.bij = true → B.bz = true) (X : K)
    (hX : (B.bV = false ∨ hA = 0 ∨ hB = 0) ∧ X = 0 ∨ X = crossCost e pos I) :
    tjForm pos I B (prodState e ψ χ) ≤ tjForm posA I B ψ * (∑ υ, χ υ * χ υ) + (∑ ρ, ψ ρ * ψ ρ) * tjForm posB I B χ +
      X * ((∑ ρ, ψ ρ * ψ ρ) * ∑ υ, χ υ * χ υ) := by
  have f1 := hop_joined h hψ χ I
  have f2 := next_joined h hψ χ I
  have f3 := sd_joined h hψ χ I
  have f4 := spin_joined h ψ χ hI
  have f5 := static_joined h ψ χ hI
  have nn : (0 : K) ≤ (∑ ρ, ψ ρ * ψ ρ) * ∑ υ, χ υ * χ υ := mul_nonneg (sum_nonneg fun _ _ => mul_self_nonneg _) (sum_nonneg fun _ _ => mul_self_nonneg _)
  have x0 : 0 ≤ X := by
    rcases hX with ⟨_, rfl⟩ | rfl
    · exact le_rfl
    · exact crossCost_nonneg _ _ _
  have f6 : B.bV = true → _ := fun hV => rep_joined h hψ hχ I X (hX.imp_left fun x => ⟨x.1.resolve_left (by rw [hV]; simp), x.2⟩)
  have xn := mul_nonneg x0 nn
  have moves : (∑ σ, prodState e ψ χ σ * ∑ τ, ((if B.bt then hopEl I pos σ τ else 0) + (if B.bSD then sdEl I pos σ τ else 0) +
        (if B.btN then nextEl I pos σ τ else 0)) * prodState e ψ χ τ) =
      (∑ ρ, ψ ρ * ∑ τ, ((if B.bt then hopEl I posA ρ τ else 0) + (if B.bSD then sdEl I posA ρ τ else 0) +
        (if B.btN then nextEl I posA ρ τ else 0)) * ψ τ) * (∑ υ, χ υ * χ υ) +
      (∑ ρ, ψ ρ * ψ ρ) * (∑ υ, χ υ * ∑ τ, ((if B.bt then hopEl I posB υ τ else 0) + (if B.bSD then sdEl I posB υ τ else 0) +
        (if B.btN then nextEl I posB υ τ else 0)) * χ τ) := by
    cases B.bt <;> cases B.bSD <;> cases B.btN
    all_goals simp only [if_true, if_false, Bool.false_eq_true, add_zero, zero_add, zero_mul, sum_const_zero, mul_zero, add_mul, mul_add,
      sum_add_distrib, f1, f2, f3]
    all_goals ring
  rw [form_split pos B hBz _ I ⟨rfl, rfl, rfl, rfl, rfl⟩, form_split posA B hBz _ I ⟨rfl, rfl, rfl, rfl, rfl⟩,
    form_split posB B hBz _ I ⟨rfl, rfl, rfl, rfl, rfl⟩, moves]
  cases hz : B.bz <;> cases hij : B.bij <;> cases hV : B.bV
  all_goals first | (have hh := hBz hij; rw [hz] at hh; cases hh; done) | skip
  all_goals simp only [if_true, if_false, Bool.false_eq_true, add_zero]
  all_goals first | linarith | (have f7 := f6 hV; linarith)

end ordered

end

end TJ
