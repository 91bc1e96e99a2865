/-
Weyl: a bound between two quadratic forms is a bound between their eigenvalues.
-/
import Mathlib.Order.Interval.Finset.Fin
import Verif.Lemmas.Interlacing

namespace TJ

open Matrix Finset

section
variable {K : Type} [Field K] [LinearOrder K] [IsStrictOrderedRing K] {n : Nat}

/-- If the form of `M` is at most the form of `N` plus `s` times the square of the norm, `M` has at least as many eigenvalues up to `e + s` as `N` has
up to `e`. -/
theorem eigen_count {M N : Matrix (Fin n) (Fin n) K} (hM : M.IsSymm) {mu nu : Fin n → K} {w y : Fin n → Fin n → K}
    (hw : ∀ k, M *ᵥ w k = mu k • w k) (hwo : ∀ i j, w i ⬝ᵥ w j = if i = j then 1 else 0)
    (hy : ∀ k, N *ᵥ y k = nu k • y k) (hyo : ∀ i j, y i ⬝ᵥ y j = if i = j then 1 else 0) (s : K)
    (h : ∀ z, z ⬝ᵥ (M *ᵥ z) ≤ z ⬝ᵥ (N *ᵥ z) + s * (z ⬝ᵥ z)) (e : K) :
    (univ.filter fun j => nu j ≤ e).card ≤ (univ.filter fun j => mu j ≤ e + s).card := by
  by_contra hlt
  set S := univ.filter fun j => mu j ≤ e + s with hS
  set T := univ.filter fun j => nu j ≤ e with hT
  obtain ⟨k, hk⟩ : ∃ k, T.card = k + 1 := ⟨T.card - 1, by omega⟩
  obtain ⟨lo, hlo, hlt'⟩ : ∃ lo, (∀ j, j ∉ S → lo ≤ mu j) ∧ e + s < lo := by
    by_cases hne : (univ.filter fun j => j ∉ S).Nonempty
    · obtain ⟨j0, hj0, hmin⟩ := exists_min_image _ mu hne
      refine ⟨mu j0, fun j hj => hmin j (by simpa using hj), ?_⟩
      have := (mem_filter.1 hj0).2
      simpa [hS] using this
    · exact ⟨e + s + 1, fun j hj => absurd ⟨j, by simpa using hj⟩ hne, by linarith⟩
  set f := T.orderEmbOfFin hk with hf
  obtain ⟨c, hc, h0⟩ := exists_combination w S (show S.card ≤ k by omega) (fun i => y (f i))
  set z := ∑ i, c i • y (f i) with hz
  have ho : ∀ i j, y (f i) ⬝ᵥ y (f j) = if i = j then 1 else 0 := by
    intro i j
    rw [hyo]
    simp
  have n1 : z ⬝ᵥ z = ∑ i, c i * c i := by
    rw [hz, dot_family (fun i => y (f i)) (fun i => y (f i)) (fun _ => 1) ho]
    simp
  have n2 : z ⬝ᵥ (N *ᵥ z) = ∑ i, nu (f i) * (c i * c i) := by
    have : N *ᵥ z = ∑ i, c i • (N *ᵥ y (f i)) := by
      rw [hz, mulVec_sum]
      simp only [mulVec_smul]
    rw [this, hz]
    refine dot_family (fun i => y (f i)) (fun i => N *ᵥ y (f i)) (fun i => nu (f i)) ?_ c
    intro i j
    rw [hy, dotProduct_smul, ho, smul_eq_mul]
    split_ifs with hij
    · rw [hij, mul_one]
    · rw [mul_zero]
  have hpos : 0 < z ⬝ᵥ z := by
    rw [n1]
    obtain ⟨i, hi⟩ := Function.ne_iff.1 hc
    exact sum_pos' (fun i _ => mul_self_nonneg _) ⟨i, mem_univ i, mul_self_pos.2 hi⟩
  have up : z ⬝ᵥ (N *ᵥ z) ≤ e * (z ⬝ᵥ z) := by
    rw [n1, n2, mul_sum]
    refine sum_le_sum fun i _ => mul_le_mul_of_nonneg_right ?_ (mul_self_nonneg _)
    exact (mem_filter.1 (T.orderEmbOfFin_mem hk i)).2
  have down : lo * (z ⬝ᵥ z) ≤ z ⬝ᵥ (M *ᵥ z) := by
    rw [complete hwo z z, complete hwo z (M *ᵥ z), mul_sum]
    refine sum_le_sum fun j _ => ?_
    rw [symm_dot hM (w j) z, hw j, smul_dotProduct, smul_eq_mul]
    by_cases hj : j ∈ S
    · rw [h0 j hj]; simp
    · have h1 : 0 ≤ (w j ⬝ᵥ z) * (w j ⬝ᵥ z) := mul_self_nonneg _
      have := mul_le_mul_of_nonneg_right (hlo j hj) h1
      linarith
  have := h z
  have h3 : lo * (z ⬝ᵥ z) ≤ (e + s) * (z ⬝ᵥ z) := by
    rw [add_mul]
    linarith
  exact absurd (le_of_mul_le_mul_right h3 hpos) (not_le.2 hlt')

/-- With the eigenvalues in ascending order the bound holds one by one. -/
theorem eigen_sorted {M N : Matrix (Fin n) (Fin n) K} (hM : M.IsSymm) {mu nu : Fin n → K} {w y : Fin n → Fin n → K}
    (hw : ∀ k, M *ᵥ w k = mu k • w k) (hwo : ∀ i j, w i ⬝ᵥ w j = if i = j then 1 else 0)
    (hy : ∀ k, N *ᵥ y k = nu k • y k) (hyo : ∀ i j, y i ⬝ᵥ y j = if i = j then 1 else 0) (hmu : Monotone mu) (hnu : Monotone nu) (s : K)
    (h : ∀ z, z ⬝ᵥ (M *ᵥ z) ≤ z ⬝ᵥ (N *ᵥ z) + s * (z ⬝ᵥ z)) (k : Fin n) : mu k ≤ nu k + s := by
  by_contra hlt
  have h1 : (k : Nat) + 1 ≤ (univ.filter fun j => nu j ≤ nu k).card := by
    have : (Finset.Iic k) ⊆ univ.filter fun j => nu j ≤ nu k := by
      intro j hj
      simp only [mem_filter, mem_univ, true_and]
      exact hnu (mem_Iic.1 hj)
    have := card_le_card this
    rwa [Fin.card_Iic] at this
  have h2 := eigen_count hM hw hwo hy hyo s h (nu k)
  have h3 : (univ.filter fun j => mu j ≤ nu k + s).card ≤ k := by
    have : (univ.filter fun j => mu j ≤ nu k + s) ⊆ Finset.Iio k := by
      intro j hj
      simp only [mem_filter, mem_univ, true_and] at hj
      rw [mem_Iio]
      by_contra hkj
      exact hlt (le_trans (hmu (not_lt.1 hkj)) hj)
    have := card_le_card this
    rwa [Fin.card_Iio] at this
  omega

end

end TJ
