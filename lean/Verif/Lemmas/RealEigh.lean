/-
Over the real numbers an exact `eigh` exists: every symmetric matrix has a sorted orthonormal eigenbasis.
-/
import Verif.Spec.Clusters
import Verif.Lemmas.ExactLib
import Verif.Lemmas.Clusters
import Mathlib.Data.Fin.Tuple.Sort

namespace TJ

open Matrix Finset

theorem eigh_exists (n : Nat) (A : Nat → Nat → Int) (hA : ∀ i < n, ∀ j < n, A i j = A j i) :
    ∃ U : Nat → Nat → ℝ, ∃ d : Nat → ℝ, EighOf n A U d := by
  obtain ⟨⟨v, w⟩, h1, h2⟩ := exists_eigh n (Matrix.of (fun i j : Fin n => ((A i j : Int) : ℝ)))
  have h1 := h1 (by
    ext i j
    simp only [transpose_apply, of_apply]
    rw [hA j j.2 i i.2])
  simp only at h1 h2
  set σ := Tuple.sort v with hσ
  have hmono : Monotone (v ∘ σ) := Tuple.monotone_sort v
  set M : Matrix (Fin n) (Fin n) ℝ := Matrix.of (fun i k => w (σ k) i) with hM
  have o1 : Mᵀ * M = 1 := by
    ext k l
    rw [Matrix.mul_apply, Matrix.one_apply]
    have := h2 (σ k) (σ l)
    rw [dotProduct] at this
    simp only [hM, transpose_apply, of_apply]
    rw [this]
    simp only [EmbeddingLike.apply_eq_iff_eq]
  have o2 : M * Mᵀ = 1 := mul_eq_one_comm.1 o1
  have hAM : (Matrix.of (fun i j : Fin n => ((A i j : Int) : ℝ))) = M * (diagonal (v ∘ σ) * Mᵀ) := by
    have e : (Matrix.of (fun i j : Fin n => ((A i j : Int) : ℝ))) * M = M * diagonal (v ∘ σ) := by
      ext i k
      rw [Matrix.mul_diagonal]
      have := congrFun (h1 (σ k)) i
      simp only [mulVec, dotProduct, Pi.smul_apply, smul_eq_mul] at this
      rw [Matrix.mul_apply]
      simp only [hM, of_apply, Function.comp] at this ⊢
      rw [this, mul_comm]
    rw [← Matrix.mul_assoc, ← e, Matrix.mul_assoc, o2, Matrix.mul_one]
  refine ⟨fun i k => if h : i < n ∧ k < n then M ⟨i, h.1⟩ ⟨k, h.2⟩ else 0, fun k => if h : k < n then v (σ ⟨k, h⟩) else 0, ?_, ?_, ?_⟩
  · intro i hi j hj
    have := congrFun (congrFun o2 ⟨i, hi⟩) ⟨j, hj⟩
    rw [Matrix.mul_apply, Matrix.one_apply] at this
    rw [Finset.sum_range]
    simp only [hi, hj, Fin.is_lt, and_self, dif_pos, Fin.eta]
    simp only [transpose_apply, Fin.mk.injEq] at this
    exact this
  · intro i hi j hj
    have := congrFun (congrFun hAM ⟨i, hi⟩) ⟨j, hj⟩
    rw [Matrix.mul_apply] at this
    rw [Finset.sum_range]
    simp only [hi, hj, Fin.is_lt, and_self, dif_pos, Fin.eta]
    simp only [diagonal_mul, transpose_apply, of_apply, Function.comp] at this
    exact this
  · intro k hk l hl hkl
    simp only [hk, hl, dif_pos]
    exact hmono (show (⟨k, hk⟩ : Fin n) ≤ ⟨l, hl⟩ from hkl)

/-- An exact `eigh` over the real numbers. -/
noncomputable def realEigh (m : NdMat) : Nat → Nat → ℝ := by
  classical
  exact if h : ∀ i < m.rows, ∀ j < m.rows, m.e i j = m.e j i then (eigh_exists m.rows m.e h).choose else fun _ _ => 0

theorem realEigh_exact (m : NdMat) (h : ∀ i < m.rows, ∀ j < m.rows, m.e i j = m.e j i) :
    ∃ d, EighOf m.rows m.e (realEigh m) d := by
  unfold realEigh
  rw [dif_pos h]
  exact (eigh_exists m.rows m.e h).choose_spec

/-- Exact arithmetic needs no rounding. -/
theorem rounds_id : Rounds (id : ℝ → ℝ) 0 :=
  ⟨rfl, rfl, fun x h => by rw [id] at h; rw [h]; simp, fun x h => by rw [id] at h; rw [h]; simp⟩

end TJ
