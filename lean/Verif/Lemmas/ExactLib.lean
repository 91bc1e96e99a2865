/-
The contracts of the numerical library can be met: exact square roots, diagonalisation and
QR decomposition exist over the real numbers.
-/
import Verif.Lemmas.Corrections
import Mathlib.Analysis.Matrix.Spectrum
import Mathlib.LinearAlgebra.FiniteDimensional.Lemmas
import Mathlib.LinearAlgebra.Dimension.Constructions

namespace TJ

open Matrix Finset

section
variable {K : Type} [Field K] [LinearOrder K] [IsStrictOrderedRing K] {d : Nat}

/-- A non-zero vector orthogonal to less than `d` vectors. -/
theorem exists_orthogonal (Q : List (Fin d → K)) (h : Q.length < d) : ∃ x : Fin d → K, x ≠ 0 ∧ ∀ q ∈ Q, q ⬝ᵥ x = 0 := by
  let f : (Fin d → K) →ₗ[K] (Fin Q.length → K) := Matrix.mulVecLin (Matrix.of fun i j => Q.get i j)
  have hk : LinearMap.ker f ≠ ⊥ := LinearMap.ker_ne_bot_of_finrank_lt (by simpa using h)
  obtain ⟨x, hx, h0⟩ := Submodule.exists_mem_ne_zero_of_ne_bot hk
  refine ⟨x, h0, ?_⟩
  intro q hq
  obtain ⟨i, hi, rfl⟩ := List.getElem_of_mem hq
  have := congrFun (LinearMap.mem_ker.1 hx) ⟨i, hi⟩
  exact this

/-- Reduced QR decompositions exist. -/
theorem exists_qr (s : K → K) (hs : ∀ x, 0 ≤ x → 0 ≤ s x ∧ s x * s x = x) (V : List (Fin d → K)) :
    ∃ Q : List (Fin d → K), Q.length = min d V.length ∧ Ortho Q ∧ (∀ v ∈ V, InSpan Q v) ∧ ∀ k, ∀ v ∈ V.take k, InSpan (Q.take k) v := by
  have hunit : ∀ t : Fin d → K, t ≠ 0 → ((s (t ⬝ᵥ t))⁻¹ • t) ⬝ᵥ ((s (t ⬝ᵥ t))⁻¹ • t) = 1 ∧ s (t ⬝ᵥ t) ≠ 0 := by
    intro t ht
    have h2 := (hs _ (dot_self_nonneg t)).2
    have h0 : t ⬝ᵥ t ≠ 0 := fun h => ht (dotProduct_self_eq_zero.1 h)
    have hne : s (t ⬝ᵥ t) ≠ 0 := by
      intro h
      rw [h, mul_zero] at h2
      exact h0 h2.symm
    refine ⟨?_, hne⟩
    rw [smul_dotProduct, dotProduct_smul, smul_eq_mul, smul_eq_mul]
    nth_rewrite 3 [← h2]
    field_simp
  induction V using List.reverseRecOn with
  | nil => exact ⟨[], by simp, by intro i; exact i.elim0, by simp, by simp⟩
  | append_singleton V v ih =>
    obtain ⟨Q, q1, q2, q3, q4⟩ := ih
    rw [List.length_append, List.length_singleton]
    rcases Nat.lt_or_ge V.length d with h | h
    · have hQ : Q.length < d := by omega
      obtain ⟨p1, p2⟩ := project_pass Q q2 v
      set t := Q.foldl (fun t q => (1 - vecMulVec q q) *ᵥ t) v
      obtain ⟨w, w0, w1, w2⟩ : ∃ w : Fin d → K, w ⬝ᵥ w = 1 ∧ (∀ q ∈ Q, q ⬝ᵥ w = 0) ∧ InSpan (Q ++ [w]) v := by
        by_cases h0 : t = 0
        · obtain ⟨x, x1, x2⟩ := exists_orthogonal Q hQ
          refine ⟨_, (hunit x x1).1, ?_, ?_⟩
          · intro q hq; rw [dotProduct_smul, x2 q hq, smul_zero]
          · have : v = v - t := by rw [h0, sub_zero]
            rw [this]; exact inSpan_append p2
        · refine ⟨_, (hunit t h0).1, ?_, ?_⟩
          · intro q hq; rw [dotProduct_smul, p1 q hq, smul_zero]
          · have : v = (v - t) + s (t ⬝ᵥ t) • ((s (t ⬝ᵥ t))⁻¹ • t) := by
              rw [smul_smul, mul_inv_cancel₀ (hunit t h0).2, one_smul, sub_add_cancel]
            rw [this]
            exact inSpan_add (inSpan_append p2) (inSpan_smul (inSpan_get (by simp)) _)
      have hall : ∀ x ∈ V ++ [v], InSpan (Q ++ [w]) x := by
        intro x hx
        rcases List.mem_append.1 hx with h | h
        · exact inSpan_append (q3 x h)
        · rw [List.mem_singleton.1 h]; exact w2
      refine ⟨Q ++ [w], by simp; omega, ortho_append q2 w0 w1, hall, ?_⟩
      intro k x hx
      rcases Nat.lt_or_ge V.length k with hk | hk
      · rw [List.take_of_length_le (by simp; omega)] at hx ⊢
        exact hall x hx
      · rw [List.take_append_of_le_length (by omega)] at hx ⊢
        exact q4 k x hx
    · suffices hall : ∀ x ∈ V ++ [v], InSpan Q x by
        refine ⟨Q, by omega, q2, hall, ?_⟩
        intro k x hx
        rcases Nat.lt_or_ge V.length k with hk | hk
        · rw [List.take_of_length_le (by omega)]
          exact hall x (List.mem_of_mem_take hx)
        · rw [List.take_append_of_le_length (by omega)] at hx
          exact q4 k x hx
      intro x hx
      have hd : Q.length = d := by omega
      -- complete family
      have hV' : ∀ i j : Fin d, Q.get (Fin.cast hd.symm i) ⬝ᵥ Q.get (Fin.cast hd.symm j) = if i = j then 1 else 0 := by
        intro i j
        rw [q2]
        simp [Fin.ext_iff]
      obtain ⟨p1, p2⟩ := project_pass Q q2 x
      set t := Q.foldl (fun t q => (1 - vecMulVec q q) *ᵥ t) x
      have ht : t = 0 := by
        have := complete (w := fun i => Q.get (Fin.cast hd.symm i)) hV' t t
        rw [sum_eq_zero (fun i _ => by rw [p1 _ (List.get_mem _ _), zero_mul])] at this
        exact dotProduct_self_eq_zero.1 this
      have : x = x - t := by rw [ht, sub_zero]
      rw [this]; exact p2

end

/-- Exact diagonalisation of real symmetric matrices. -/
theorem exists_eigh (n : Nat) (M : Matrix (Fin n) (Fin n) ℝ) :
    ∃ e : (Fin n → ℝ) × (Fin n → Fin n → ℝ), (M.IsSymm →
      (∀ k, M *ᵥ e.2 k = e.1 k • e.2 k)) ∧ ∀ i j, e.2 i ⬝ᵥ e.2 j = if i = j then 1 else 0 := by
  by_cases h : M.IsSymm
  · have hM : M.IsHermitian := by
      rw [Matrix.IsHermitian, conjTranspose_eq_transpose_of_trivial]; exact h
    refine ⟨(hM.eigenvalues, fun k => WithLp.ofLp (hM.eigenvectorBasis k)), fun _ => fun k => hM.mulVec_eigenvectorBasis k, ?_⟩
    intro i j
    have := orthonormal_iff_ite.1 hM.eigenvectorBasis.orthonormal i j
    rw [EuclideanSpace.inner_eq_star_dotProduct, star_trivial, dotProduct_comm] at this
    exact this
  · refine ⟨(0, fun k => Pi.single k 1), fun h' => absurd h' h, ?_⟩
    intro i j
    simp [Pi.single_apply, eq_comm]

/-- A library with exact arithmetic over the real numbers. -/
noncomputable def realLib : LinAlg ℝ where
  sqrt := Real.sqrt
  eigh n M := (exists_eigh n M).choose
  qr _ V := (exists_qr Real.sqrt (fun x hx => ⟨Real.sqrt_nonneg x, Real.mul_self_sqrt hx⟩) V).choose
  rand _ m := List.replicate m (fun _ => 1)

theorem realLib_sqrt : realLib.ExactSqrt := fun x hx => ⟨Real.sqrt_nonneg x, Real.mul_self_sqrt hx⟩

theorem realLib_eigh : realLib.ExactEigh := fun n M hM => ⟨(exists_eigh n M).choose_spec.1 hM, (exists_eigh n M).choose_spec.2⟩

theorem realLib_ne_zero (n : Nat) (M : Matrix (Fin n) (Fin n) ℝ) (i : Fin n) : (realLib.eigh n M).2 i ≠ 0 := by
  intro h
  have h1 : (realLib.eigh n M).2 i ⬝ᵥ (realLib.eigh n M).2 i = if i = i then 1 else 0 := (exists_eigh n M).choose_spec.2 i i
  rw [h, if_pos rfl, zero_dotProduct] at h1
  exact zero_ne_one h1

theorem realLib_qr : realLib.ExactQr := fun _ V =>
  let h := (exists_qr Real.sqrt (fun x hx => ⟨Real.sqrt_nonneg x, Real.mul_self_sqrt hx⟩) V).choose_spec
  ⟨h.1, h.2.1, h.2.2.1⟩

theorem realLib_nested : realLib.NestedQr := fun _ V =>
  (exists_qr Real.sqrt (fun x hx => ⟨Real.sqrt_nonneg x, Real.mul_self_sqrt hx⟩) V).choose_spec.2.2.2

theorem realLib_rand (d m : Nat) : (realLib.rand d m).length = m := by simp [realLib]

end TJ
