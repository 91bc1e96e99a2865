/-
Matrix elements of products of creation and annihilation operators.
-/
import Verif.Spec.Fermi
import Verif.Lemmas.Sector
import Mathlib.Tactic.Ring
import Mathlib.Tactic.LinearCombination

namespace TJ

open Finset Matrix

section
variable {K : Type} [Field K] {M : Type} [DecidableEq M] [Fintype M] (r : M → Nat)

/-- The vector of one set of occupied modes. -/
def ket (S : Finset M) : Finset M → K := Pi.single S 1

theorem mulVec_ket (A : Matrix (Finset M) (Finset M) K) (S T : Finset M) : (A *ᵥ ket S) T = A T S := by
  unfold ket
  rw [mulVec_single_one]
  rfl

theorem ket_apply (S T : Finset M) : (ket S : Finset M → K) T = if T = S then 1 else 0 := by
  unfold ket
  rw [Pi.single_apply]

theorem annih_ket (m : M) (S : Finset M) :
    annih K r m *ᵥ ket S = if m ∈ S then ((-1) ^ before r m S : K) • ket (S.erase m) else 0 := by
  funext T
  rw [mulVec_ket]
  unfold annih
  by_cases h : m ∈ S
  · rw [if_pos h, Pi.smul_apply, ket_apply, smul_eq_mul]
    by_cases h2 : T = S.erase m
    · rw [if_pos ⟨h, h2⟩, if_pos h2, mul_one]
    · rw [if_neg (fun h' => h2 h'.2), if_neg h2, mul_zero]
  · rw [if_neg h, if_neg (fun h' => h h'.1)]
    rfl

omit [Fintype M] in
theorem before_insert (m : M) (S : Finset M) : before r m (insert m S) = before r m S := by
  unfold before
  rw [filter_insert, if_neg (lt_irrefl _)]

omit [Fintype M] in
theorem before_erase (m : M) (S : Finset M) : before r m (S.erase m) = before r m S := by
  unfold before
  congr 1
  ext k
  simp only [mem_filter, mem_erase]
  refine ⟨fun h => ⟨h.1.2, h.2⟩, fun h => ⟨⟨?_, h.1⟩, h.2⟩⟩
  rintro rfl
  exact lt_irrefl _ h.2

theorem create_ket (m : M) (S : Finset M) :
    create K r m *ᵥ ket S = if m ∈ S then 0 else ((-1) ^ before r m S : K) • ket (insert m S) := by
  funext T
  rw [mulVec_ket]
  show annih K r m S T = _
  unfold annih
  by_cases h : m ∈ S
  · rw [if_pos h, if_neg]
    · rfl
    · rintro ⟨_, h2⟩
      rw [h2] at h
      exact notMem_erase m T h
  · rw [if_neg h, Pi.smul_apply, ket_apply, smul_eq_mul]
    by_cases h2 : T = insert m S
    · subst h2
      rw [if_pos ⟨mem_insert_self _ _, (erase_insert h).symm⟩, if_pos rfl, mul_one, before_insert]
    · rw [if_neg h2, mul_zero, if_neg]
      rintro ⟨h3, h4⟩
      exact h2 (by rw [h4, insert_erase h3])

theorem matrix_ext_ket {A B : Matrix (Finset M) (Finset M) K} (h : ∀ S, A *ᵥ ket S = B *ᵥ ket S) : A = B := by
  ext T S
  exact (mulVec_ket A S T).symm.trans ((congrFun (h S) T).trans (mulVec_ket B S T))

theorem neg_one_sq_pow (k : Nat) : ((-1 : K) ^ k) * (-1) ^ k = 1 := by
  rw [← mul_pow]
  simp

omit [Fintype M] in
/-- Emptying another mode that comes before changes the number of the modes before by one. -/
theorem before_erase_ne {m k : M} {S : Finset M} (hk : k ∈ S) (hr : r k < r m) : before r m S = before r m (S.erase k) + 1 := by
  unfold before
  rw [filter_erase, card_erase_of_mem (mem_filter.2 ⟨hk, hr⟩), Nat.sub_add_cancel (card_pos.2 ⟨k, mem_filter.2 ⟨hk, hr⟩⟩)]

omit [Fintype M] in
theorem before_erase_after {m k : M} {S : Finset M} (hr : ¬ r k < r m) : before r m (S.erase k) = before r m S := by
  unfold before
  rw [filter_erase, erase_eq_of_notMem]
  exact fun h => hr (mem_filter.1 h).2

omit [Fintype M] in
theorem before_insert_ne {m k : M} {S : Finset M} (hk : k ∉ S) (hr : r k < r m) : before r m (insert k S) = before r m S + 1 := by
  unfold before
  rw [filter_insert, if_pos hr, card_insert_of_notMem (fun h => hk (mem_filter.1 h).1)]

omit [Fintype M] in
theorem before_insert_after {m k : M} {S : Finset M} (hr : ¬ r k < r m) : before r m (insert k S) = before r m S := by
  unfold before
  rw [filter_insert, if_neg hr]

variable {r}

/-- Two annihilation operators anticommute. -/
theorem annih_anti (hr : Function.Injective r) (m k : M) : annih K r m * annih K r k + annih K r k * annih K r m = 0 := by
  apply matrix_ext_ket
  intro S
  rw [zero_mulVec, add_mulVec, ← mulVec_mulVec, ← mulVec_mulVec, annih_ket, annih_ket]
  by_cases hmk : m = k
  · subst hmk
    have : annih K r m *ᵥ (if m ∈ S then ((-1) ^ before r m S : K) • ket (S.erase m) else 0) = 0 := by
      split_ifs with h
      · rw [mulVec_smul, annih_ket, if_neg (notMem_erase m S), smul_zero]
      · rw [mulVec_zero]
    rw [this, add_zero]
  · by_cases h1 : m ∈ S <;> by_cases h2 : k ∈ S
    · rw [if_pos h1, if_pos h2, mulVec_smul, mulVec_smul, annih_ket, annih_ket, if_pos (mem_erase.2 ⟨hmk, h1⟩),
        if_pos (mem_erase.2 ⟨Ne.symm hmk, h2⟩), smul_smul, smul_smul, erase_right_comm, ← add_smul]
      convert zero_smul K _ using 2
      rcases lt_or_gt_of_ne (fun h => hmk (hr h)) with h | h
      · rw [before_erase_ne r h1 h, before_erase_after r (not_lt.2 h.le)]
        ring
      · rw [before_erase_ne r h2 h, before_erase_after r (not_lt.2 h.le)]
        ring
    · rw [if_neg h2, mulVec_zero, if_pos h1, mulVec_smul, annih_ket, if_neg (fun h => h2 (mem_of_mem_erase h)), smul_zero, add_zero]
    · rw [if_neg h1, mulVec_zero, if_pos h2, mulVec_smul, annih_ket, if_neg (fun h => h1 (mem_of_mem_erase h)), smul_zero, add_zero]
    · rw [if_neg h1, if_neg h2, mulVec_zero, mulVec_zero, add_zero]

/-- Annihilation and creation anticommute, except for the same mode. -/
theorem annih_create (hr : Function.Injective r) (m k : M) :
    annih K r m * create K r k + create K r k * annih K r m = if m = k then 1 else 0 := by
  apply matrix_ext_ket
  intro S
  rw [add_mulVec, ← mulVec_mulVec, ← mulVec_mulVec, annih_ket, create_ket]
  by_cases hmk : m = k
  · subst hmk
    rw [if_pos rfl, one_mulVec]
    by_cases h : m ∈ S
    · rw [if_pos h, if_pos h, mulVec_zero, zero_add, mulVec_smul, create_ket, if_neg (notMem_erase _ _), smul_smul, before_erase,
        neg_one_sq_pow, one_smul, insert_erase h]
    · rw [if_neg h, if_neg h, mulVec_zero, add_zero, mulVec_smul, annih_ket, if_pos (mem_insert_self _ _), smul_smul, before_insert,
        neg_one_sq_pow, one_smul, erase_insert h]
  · rw [if_neg hmk, zero_mulVec]
    by_cases h1 : m ∈ S <;> by_cases h2 : k ∈ S
    · rw [if_pos h1, if_pos h2, mulVec_zero, mulVec_smul, create_ket, if_pos (mem_erase.2 ⟨Ne.symm hmk, h2⟩), smul_zero, add_zero]
    · rw [if_pos h1, if_neg h2, mulVec_smul, mulVec_smul, annih_ket, create_ket, if_pos (mem_insert_of_mem h1),
        if_neg (fun h => h2 (mem_of_mem_erase h)), smul_smul, smul_smul, erase_insert_of_ne (Ne.symm hmk), ← add_smul]
      convert zero_smul K _ using 2
      rcases lt_or_gt_of_ne (fun h => hmk (hr h)) with h | h
      · rw [before_insert_after r (not_lt.2 h.le), before_erase_ne r h1 h]
        ring
      · rw [before_insert_ne r h2 h, before_erase_after r (not_lt.2 h.le)]
        ring
    · rw [if_neg h1, if_pos h2, mulVec_zero, mulVec_zero, add_zero]
    · rw [if_neg h1, if_neg h2, mulVec_zero, mulVec_smul, annih_ket, if_neg, smul_zero, add_zero]
      rw [mem_insert]
      exact fun h => h.elim hmk h1

/-! ### Other numberings -/

/-- The sign of a pair of modes that two numberings order differently. -/
def pairSign (K : Type) [Field K] (r r' : M → Nat) (m k : M) : K := if r m < r k ∧ r' k < r' m then -1 else 1

/-- The sign of the permutation between two numberings of the occupied modes. -/
def orderSign (K : Type) [Field K] (r r' : M → Nat) (S : Finset M) : K := ∏ m ∈ S, ∏ k ∈ S, pairSign K r r' m k

omit [DecidableEq M] [Fintype M] in
theorem pairSign_sq (r r' : M → Nat) (m k : M) : pairSign K r r' m k * pairSign K r r' m k = 1 := by
  unfold pairSign
  split_ifs <;> ring

omit [DecidableEq M] [Fintype M] in
theorem orderSign_sq (r r' : M → Nat) (S : Finset M) : orderSign K r r' S * orderSign K r r' S = 1 := by
  unfold orderSign
  rw [← prod_mul_distrib]
  refine prod_eq_one fun m _ => ?_
  rw [← prod_mul_distrib]
  exact prod_eq_one fun k _ => pairSign_sq r r' m k

omit [DecidableEq M] [Fintype M] in
theorem sign_before (m : M) (S : Finset M) : ((-1) ^ before r m S : K) = ∏ k ∈ S, if r k < r m then -1 else 1 := by
  unfold before
  rw [prod_ite, prod_const_one, mul_one, prod_const]

omit [Fintype M] in
theorem orderSign_insert {r' : M → Nat} (hr : Function.Injective r) (hr' : Function.Injective r') {m : M} {S : Finset M} (hm : m ∉ S) :
    orderSign K r r' (insert m S) = orderSign K r r' S * ((-1) ^ before r m S * (-1) ^ before r' m S) := by
  unfold orderSign
  rw [prod_insert hm, prod_insert hm]
  have h0 : pairSign K r r' m m = 1 := by
    unfold pairSign
    rw [if_neg (fun h => lt_irrefl _ h.1)]
  have h3 : ∀ x ∈ S, (∏ k ∈ insert m S, pairSign K r r' x k) = pairSign K r r' x m * ∏ k ∈ S, pairSign K r r' x k :=
    fun x _ => prod_insert hm
  have h4 : (∏ k ∈ S, pairSign K r r' m k) * ∏ k ∈ S, pairSign K r r' k m =
      (∏ k ∈ S, if r k < r m then -1 else 1) * ∏ k ∈ S, if r' k < r' m then -1 else 1 := by
    rw [← prod_mul_distrib, ← prod_mul_distrib]
    refine prod_congr rfl fun k hk => ?_
    have hne : k ≠ m := fun h => hm (h ▸ hk)
    have h1 : r k ≠ r m := fun h => hne (hr h)
    have h2 : r' k ≠ r' m := fun h => hne (hr' h)
    unfold pairSign
    rcases lt_or_gt_of_ne h1 with h1 | h1 <;> rcases lt_or_gt_of_ne h2 with h2 | h2 <;>
      simp [h1, h2, not_lt.2 h1.le, not_lt.2 h2.le]
  rw [h0, one_mul, prod_congr rfl h3, prod_mul_distrib, sign_before, sign_before, ← h4]
  ring

/-- Another numbering of the modes changes the signs of the basis vectors only. -/
theorem annih_order {r' : M → Nat} (hr : Function.Injective r) (hr' : Function.Injective r') (m : M) :
    annih K r m = diagonal (orderSign K r r') * annih K r' m * diagonal (orderSign K r r') := by
  ext T S
  rw [mul_diagonal, diagonal_mul]
  unfold annih
  by_cases h : m ∈ S ∧ T = S.erase m
  · rw [if_pos h, if_pos h]
    obtain ⟨h1, rfl⟩ := h
    have h2 : orderSign K r r' S = orderSign K r r' (S.erase m) * ((-1) ^ before r m (S.erase m) * (-1) ^ before r' m (S.erase m)) := by
      conv_lhs => rw [← insert_erase h1]
      exact orderSign_insert hr hr' (notMem_erase m S)
    rw [h2, before_erase, before_erase]
    have h3 := orderSign_sq (K := K) r r' (S.erase m)
    have h4 := neg_one_sq_pow (K := K) (before r' m S)
    linear_combination (-((-1) ^ before r m S * (-1) ^ before r' m S * (-1) ^ before r' m S : K)) * h3 - ((-1) ^ before r m S : K) * h4
  · rw [if_neg h, if_neg h, mul_zero, zero_mul]

end

end TJ
