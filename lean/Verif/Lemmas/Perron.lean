/-
Lowest eigenvectors of symmetric matrices whose off-diagonal elements can be made non-positive by a change of signs.
-/
import Mathlib.Data.Real.Basic
import Mathlib.Data.Matrix.Mul
import Mathlib.LinearAlgebra.Matrix.DotProduct
import Mathlib.LinearAlgebra.Matrix.Symmetric
import Mathlib.Algebra.Order.BigOperators.Group.Finset
import Mathlib.Logic.Relation
import Mathlib.Tactic.Linarith
import Mathlib.Tactic.FieldSimp
import Mathlib.Tactic.Ring

namespace TJ

open Finset Matrix

section
variable {d : Nat} {A : Matrix (Fin d) (Fin d) ℝ} {e : ℝ}

theorem symm_dot_comm (hA : A.IsSymm) (x y : Fin d → ℝ) : x ⬝ᵥ (A *ᵥ y) = y ⬝ᵥ (A *ᵥ x) := by
  rw [dotProduct_mulVec, ← mulVec_transpose, hA.eq, dotProduct_comm]

/-- A vector at which the quadratic form reaches its lower bound is an eigenvector. -/
theorem eigen_of_min (hA : A.IsSymm) (hmin : ∀ x, e * (x ⬝ᵥ x) ≤ x ⬝ᵥ (A *ᵥ x)) (y : Fin d → ℝ)
    (hy : y ⬝ᵥ (A *ᵥ y) = e * (y ⬝ᵥ y)) : A *ᵥ y = e • y := by
  set r := A *ᵥ y - e • y with hr
  have key : ∀ t : ℝ, 0 ≤ - 2 * t * (r ⬝ᵥ r) + t ^ 2 * (r ⬝ᵥ (A *ᵥ r) - e * (r ⬝ᵥ r)) := by
    intro t
    have h := hmin (y - t • r)
    have h1 : (y - t • r) ⬝ᵥ (y - t • r) = y ⬝ᵥ y - 2 * t * (r ⬝ᵥ y) + t ^ 2 * (r ⬝ᵥ r) := by
      simp only [sub_dotProduct, dotProduct_sub, smul_dotProduct, dotProduct_smul, smul_eq_mul, dotProduct_comm y r]
      ring
    have h2 : (y - t • r) ⬝ᵥ (A *ᵥ (y - t • r)) = y ⬝ᵥ (A *ᵥ y) - 2 * t * (r ⬝ᵥ (A *ᵥ y)) + t ^ 2 * (r ⬝ᵥ (A *ᵥ r)) := by
      rw [mulVec_sub, mulVec_smul]
      simp only [sub_dotProduct, dotProduct_sub, smul_dotProduct, dotProduct_smul, smul_eq_mul, symm_dot_comm hA y r]
      ring
    have h3 : r ⬝ᵥ r = r ⬝ᵥ (A *ᵥ y) - e * (r ⬝ᵥ y) := by
      conv_lhs => rw [hr]
      rw [sub_dotProduct, smul_dotProduct, smul_eq_mul, dotProduct_comm (A *ᵥ y), dotProduct_comm y]
    rw [h1, h2, hy] at h
    have h4 : r ⬝ᵥ (A *ᵥ y) = r ⬝ᵥ r + e * (r ⬝ᵥ y) := by linarith
    rw [h4] at h
    nlinarith [h]
  have h0 : 0 ≤ r ⬝ᵥ r := sum_nonneg fun i _ => mul_self_nonneg _
  have hz : r ⬝ᵥ r = 0 := by
    by_contra hne
    have hp : 0 < r ⬝ᵥ r := lt_of_le_of_ne h0 (Ne.symm hne)
    set C := r ⬝ᵥ (A *ᵥ r) - e * (r ⬝ᵥ r) with hC
    by_cases hc : 0 < C
    · have := key ((r ⬝ᵥ r) / C)
      have e2 : -2 * ((r ⬝ᵥ r) / C) * (r ⬝ᵥ r) + ((r ⬝ᵥ r) / C) ^ 2 * C = - ((r ⬝ᵥ r) ^ 2 / C) := by
        field_simp
        ring
      rw [e2] at this
      have : 0 < (r ⬝ᵥ r) ^ 2 / C := div_pos (pow_pos hp 2) hc
      linarith
    · have := key 1
      nlinarith
  have : r = 0 := dotProduct_self_eq_zero.1 hz
  exact sub_eq_zero.1 this

/-- Perron-Frobenius: if the elements outside the diagonal are not positive after the change of signs `s` and connect all indices,
the coefficients of an eigenvector for the lowest eigenvalue are not zero and have the signs `s`, up to a common sign. -/
theorem perron (hA : A.IsSymm) (s : Fin d → ℝ) (hs : ∀ i, s i * s i = 1) (hneg : ∀ i j, i ≠ j → s i * s j * A i j ≤ 0)
    (hconn : ∀ i j, Relation.ReflTransGen (fun i j => i ≠ j ∧ s i * s j * A i j < 0) i j)
    (hmin : ∀ x, e * (x ⬝ᵥ x) ≤ x ⬝ᵥ (A *ᵥ x)) (x : Fin d → ℝ) (hx : A *ᵥ x = e • x) (hne : x ≠ 0) :
    ∀ i j, 0 < s i * x i * (s j * x j) := by
  set y : Fin d → ℝ := fun i => s i * |x i| with hy
  have habs : ∀ i, |s i * x i| = |x i| := by
    intro i
    rw [abs_mul]
    have : |s i| = 1 := by
      have := abs_mul_abs_self (s i)
      rw [hs] at this
      nlinarith [abs_nonneg (s i)]
    rw [this, one_mul]
  -- term by term comparison of the quadratic forms
  have term : ∀ i j, y i * (A i j * y j) ≤ x i * (A i j * x j) := by
    intro i j
    by_cases hij : i = j
    · subst hij
      have e1 : y i * (A i i * y i) = s i * s i * A i i * (|x i| * |x i|) := by rw [hy]; ring
      rw [e1, hs, abs_mul_abs_self]
      linarith
    · have e1 : y i * (A i j * y j) = s i * s j * A i j * (|s i * x i| * |s j * x j|) := by rw [habs, habs, hy]; ring
      have e2 : x i * (A i j * x j) = s i * s j * A i j * ((s i * x i) * (s j * x j)) := by
        have : s i * s j * A i j * ((s i * x i) * (s j * x j)) = (s i * s i) * (s j * s j) * (x i * (A i j * x j)) := by ring
        rw [this, hs, hs]; ring
      rw [e1, e2]
      apply mul_le_mul_of_nonpos_left _ (hneg i j hij)
      rw [← abs_mul]
      exact le_abs_self _
  have hyy : y ⬝ᵥ y = x ⬝ᵥ x := by
    refine sum_congr rfl fun i _ => ?_
    have : y i * y i = s i * s i * (|x i| * |x i|) := by rw [hy]; ring
    rw [this, hs, abs_mul_abs_self, one_mul]
  have quad : ∀ z : Fin d → ℝ, z ⬝ᵥ (A *ᵥ z) = ∑ i, ∑ j, z i * (A i j * z j) := by
    intro z
    simp only [dotProduct, mulVec, mul_sum]
  have hxx : x ⬝ᵥ (A *ᵥ x) = e * (x ⬝ᵥ x) := by rw [hx, dotProduct_smul, smul_eq_mul]
  have hle : y ⬝ᵥ (A *ᵥ y) ≤ x ⬝ᵥ (A *ᵥ x) := by
    rw [quad, quad]
    exact sum_le_sum fun i _ => sum_le_sum fun j _ => term i j
  have heq : y ⬝ᵥ (A *ᵥ y) = x ⬝ᵥ (A *ᵥ x) := le_antisymm hle (by rw [hxx, ← hyy]; exact hmin y)
  have hey : A *ᵥ y = e • y := eigen_of_min hA hmin y (by rw [heq, hxx, hyy])
  -- equality in every term
  have hterm : ∀ i j, y i * (A i j * y j) = x i * (A i j * x j) := by
    rw [quad, quad] at heq
    intro i j
    have h1 := (sum_eq_sum_iff_of_le (fun i _ => sum_le_sum fun j _ => term i j)).1 heq i (mem_univ _)
    exact (sum_eq_sum_iff_of_le (fun j _ => term i j)).1 h1 j (mem_univ _)
  -- a zero spreads
  have spread : ∀ i j, i ≠ j ∧ s i * s j * A i j < 0 → x i = 0 → x j = 0 := by
    rintro i j ⟨hij, hlt⟩ h0
    have h1 : ∑ k, A i k * y k = 0 := by
      have := congrFun hey i
      rw [Pi.smul_apply, smul_eq_mul] at this
      have hyi : y i = 0 := by rw [hy]; simp [h0]
      rw [hyi, mul_zero] at this
      exact this
    have h2 : ∀ k ∈ univ, 0 ≤ - (s i * (A i k * y k)) := by
      intro k _
      by_cases hk : i = k
      · subst hk
        have hyi : y i = 0 := by rw [hy]; simp [h0]
        rw [hyi]; simp
      · have : s i * (A i k * y k) = s i * s k * A i k * |x k| := by rw [hy]; ring
        rw [this]
        have := mul_nonpos_of_nonpos_of_nonneg (hneg i k hk) (abs_nonneg (x k))
        linarith
    have h3 : ∑ k, - (s i * (A i k * y k)) = 0 := by
      rw [sum_neg_distrib, ← mul_sum, h1]; simp
    have h4 := (sum_eq_zero_iff_of_nonneg h2).1 h3 j (mem_univ _)
    have h5 : s i * (A i j * y j) = s i * s j * A i j * |x j| := by rw [hy]; ring
    rw [h5, neg_eq_zero, mul_eq_zero] at h4
    rcases h4 with h4 | h4
    · exact absurd h4 hlt.ne
    · exact abs_eq_zero.1 h4
  have hnz : ∀ i, x i ≠ 0 := by
    intro i h0
    apply hne
    funext j
    have := hconn i j
    induction this with
    | refl => exact h0
    | tail _ h ih => exact spread _ _ h ih
  have same : ∀ i j, i ≠ j ∧ s i * s j * A i j < 0 → 0 < s i * x i * (s j * x j) := by
    rintro i j ⟨hij, hlt⟩
    have h1 := hterm i j
    have e1 : y i * (A i j * y j) = s i * s j * A i j * (|s i * x i| * |s j * x j|) := by rw [habs, habs, hy]; ring
    have e2 : x i * (A i j * x j) = s i * s j * A i j * ((s i * x i) * (s j * x j)) := by
      have : s i * s j * A i j * ((s i * x i) * (s j * x j)) = (s i * s i) * (s j * s j) * (x i * (A i j * x j)) := by ring
      rw [this, hs, hs]; ring
    rw [e1, e2] at h1
    have h2 := mul_left_cancel₀ hlt.ne h1
    rw [← h2, habs, habs]
    exact mul_pos (abs_pos.2 (hnz i)) (abs_pos.2 (hnz j))
  have hsnz : ∀ i, s i * x i ≠ 0 := by
    intro i h
    have := habs i
    rw [h, abs_zero] at this
    exact hnz i (abs_eq_zero.1 this.symm)
  intro i j
  have := hconn i j
  induction this with
  | refl => exact mul_self_pos.2 (hsnz i)
  | @tail b c _ h ih =>
    have h1 := same _ _ h
    have h2 : 0 < (s i * x i * (s c * x c)) * ((s b * x b) * (s b * x b)) := by
      have : (s i * x i * (s c * x c)) * ((s b * x b) * (s b * x b)) = (s i * x i * (s b * x b)) * (s b * x b * (s c * x c)) := by ring
      rw [this]
      exact mul_pos ih h1
    exact (pos_iff_pos_of_mul_pos h2).2 (mul_self_pos.2 (hsnz b))

/-- Under the same conditions the eigenvectors for the lowest eigenvalue are the multiples of one of them. -/
theorem perron_unique (hA : A.IsSymm) (s : Fin d → ℝ) (hs : ∀ i, s i * s i = 1) (hneg : ∀ i j, i ≠ j → s i * s j * A i j ≤ 0)
    (hconn : ∀ i j, Relation.ReflTransGen (fun i j => i ≠ j ∧ s i * s j * A i j < 0) i j)
    (hmin : ∀ x, e * (x ⬝ᵥ x) ≤ x ⬝ᵥ (A *ᵥ x)) (x y : Fin d → ℝ) (hx : A *ᵥ x = e • x) (hy : A *ᵥ y = e • y) (hne : x ≠ 0) :
    ∃ a : ℝ, y = a • x := by
  obtain ⟨i, hi⟩ := Function.ne_iff.1 hne
  have hi : x i ≠ 0 := hi
  refine ⟨y i / x i, ?_⟩
  by_contra h
  have hz : A *ᵥ (y - (y i / x i) • x) = e • (y - (y i / x i) • x) := by
    rw [mulVec_sub, mulVec_smul, hx, hy, smul_sub, smul_comm]
  have := perron hA s hs hneg hconn hmin _ hz (sub_ne_zero.2 h) i i
  have h0 : (y - (y i / x i) • x) i = 0 := by
    rw [Pi.sub_apply, Pi.smul_apply, smul_eq_mul, div_mul_cancel₀ _ hi, sub_self]
  rw [h0] at this
  simp at this

end

end TJ
