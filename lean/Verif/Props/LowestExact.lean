/-
C140, exact condition: the energies returned by `modified_davidson_algorithm` are the lowest ones exactly if the last search space contains
eigenvectors of the lowest energies, and then the returned states are such eigenvectors.
-/
import Verif.Props.LowestFound
import Verif.Lemmas.OwnEigenvalues
import Verif.Props.Couplings
import Verif.Props.Davidson2

namespace TJ

open Finset Matrix

section
variable {K : Type} [Field K] [LinearOrder K] [IsStrictOrderedRing K] {d : Nat}

/-- Orthonormal vectors whose mean energies are the lowest eigenvalues are eigenvectors. -/
theorem lowest_vectors {A : Matrix (Fin d) (Fin d) K} (hA : A.IsSymm) {mu : Fin d → K} {x : Fin d → Fin d → K}
    (hx : ∀ j, A *ᵥ x j = mu j • x j) (hxo : ∀ i j, x i ⬝ᵥ x j = if i = j then 1 else 0) (hmu : Monotone mu) {n : Nat} (hn : n ≤ d)
    (u : Fin n → Fin d → K) (hu : ∀ i j, u i ⬝ᵥ u j = if i = j then 1 else 0)
    (hval : ∀ k, u k ⬝ᵥ (A *ᵥ u k) = mu (Fin.castLE hn k)) (k : Fin n) : A *ᵥ u k = mu (Fin.castLE hn k) • u k := by
  have hsym : ∀ v w : Fin d → K, v ⬝ᵥ (A *ᵥ w) = (A *ᵥ v) ⬝ᵥ w := by
    intro v w
    rw [dotProduct_mulVec, ← mulVec_transpose, hA.eq]
  have hcoef : ∀ j (w : Fin d → K), x j ⬝ᵥ (A *ᵥ w) = mu j * (x j ⬝ᵥ w) := by
    intro j w
    rw [hsym, hx, smul_dotProduct, smul_eq_mul]
  have hone : ∀ i, ∑ j, (x j ⬝ᵥ u i) * (x j ⬝ᵥ u i) = 1 := by
    intro i
    rw [← complete hxo, hu, if_pos rfl]
  have hmean : ∀ i, ∑ j, mu j * ((x j ⬝ᵥ u i) * (x j ⬝ᵥ u i)) = mu (Fin.castLE hn i) := by
    intro i
    rw [← hval, complete hxo]
    exact sum_congr rfl fun j _ => by rw [hcoef]; ring
  have hback : ∀ i, (∀ j, x j ⬝ᵥ u i ≠ 0 → mu j = mu (Fin.castLE hn i)) → A *ᵥ u i = mu (Fin.castLE hn i) • u i := by
    intro i h
    have : (A *ᵥ u i - mu (Fin.castLE hn i) • u i) = 0 := by
      apply dotProduct_self_eq_zero.1
      rw [complete hxo]
      refine sum_eq_zero fun j _ => ?_
      have : x j ⬝ᵥ (A *ᵥ u i - mu (Fin.castLE hn i) • u i) = 0 := by
        rw [dotProduct_sub, hcoef, dotProduct_smul, smul_eq_mul, ← sub_mul]
        by_cases h0 : x j ⬝ᵥ u i = 0
        · rw [h0, mul_zero]
        · rw [h j h0, sub_self, zero_mul]
      rw [this, zero_mul]
    exact sub_eq_zero.1 this
  induction k using WellFoundedLT.induction with
  | ind k ih =>
    apply hback
    let s : Finset (Fin d) := univ.filter fun j => mu j < mu (Fin.castLE hn k)
    let s' : Finset (Fin n) := univ.filter fun i => mu (Fin.castLE hn i) < mu (Fin.castLE hn k)
    have hlt : ∀ j, mu j < mu (Fin.castLE hn k) → j < Fin.castLE hn k := by
      intro j hj
      by_contra h
      exact absurd (hmu (not_lt.1 h)) (not_le.2 hj)
    have hcard : s.card = s'.card := by
      rw [← card_map (Fin.castLEEmb hn)]
      congr 1
      ext j
      simp only [s, s', mem_filter, mem_univ, true_and, mem_map]
      constructor
      · intro hj
        have := hlt j hj
        have hk := k.2
        rw [Fin.lt_def] at this
        exact ⟨⟨j, by have : (j : Nat) < (k : Nat) := this; omega⟩, hj, rfl⟩
      · rintro ⟨i, hi, rfl⟩
        exact hi
    have hrow : ∀ i ∈ s', ∑ j ∈ s, (x j ⬝ᵥ u i) * (x j ⬝ᵥ u i) = 1 := by
      intro i hi
      have hi' := (mem_filter.1 hi).2
      rw [← hone i]
      refine sum_subset (subset_univ _) fun j _ hj => ?_
      have he := ih i (by
        have := hlt _ hi'
        exact this)
      have : (mu j - mu (Fin.castLE hn i)) * (x j ⬝ᵥ u i) = 0 := by
        rw [sub_mul, ← hcoef, he, dotProduct_smul, smul_eq_mul, sub_self]
      rcases mul_eq_zero.1 this with h0 | h0
      · exact absurd (mem_filter.2 ⟨mem_univ j, by rw [sub_eq_zero.1 h0]; exact hi'⟩) hj
      · rw [h0, zero_mul]
    have hkn : k ∉ s' := fun h => lt_irrefl _ (mem_filter.1 h).2
    have hcol : ∀ j, (∑ i ∈ s', (x j ⬝ᵥ u i) * (x j ⬝ᵥ u i)) + (x j ⬝ᵥ u k) * (x j ⬝ᵥ u k) ≤ 1 := by
      intro j
      have hb := bessel hu (x j)
      rw [hxo, if_pos rfl] at hb
      refine le_trans ?_ hb
      rw [add_comm, ← sum_insert (f := fun i => (x j ⬝ᵥ u i) * (x j ⬝ᵥ u i)) hkn]
      refine le_trans (sum_le_sum_of_subset_of_nonneg (subset_univ _) fun i _ _ => mul_self_nonneg _) (le_of_eq ?_)
      refine sum_congr rfl fun i _ => ?_
      rw [dotProduct_comm (u i)]
    have hzero : ∑ j ∈ s, (x j ⬝ᵥ u k) * (x j ⬝ᵥ u k) ≤ 0 := by
      have h1 : ∑ j ∈ s, ((∑ i ∈ s', (x j ⬝ᵥ u i) * (x j ⬝ᵥ u i)) + (x j ⬝ᵥ u k) * (x j ⬝ᵥ u k)) ≤ ∑ _j ∈ s, 1 :=
        sum_le_sum fun j _ => hcol j
      rw [sum_add_distrib, sum_comm, sum_congr rfl hrow, sum_const, sum_const, hcard] at h1
      linarith
    have hvan : ∀ j ∈ s, x j ⬝ᵥ u k = 0 := by
      intro j hj
      have h0 := le_antisymm hzero (sum_nonneg fun j _ => mul_self_nonneg _)
      exact mul_self_eq_zero.1 ((sum_eq_zero_iff_of_nonneg fun j _ => mul_self_nonneg _).1 h0 j hj)
    have hsum : ∑ j, (mu j - mu (Fin.castLE hn k)) * ((x j ⬝ᵥ u k) * (x j ⬝ᵥ u k)) = 0 := by
      simp only [sub_mul]
      rw [sum_sub_distrib, hmean, ← mul_sum, hone, mul_one, sub_self]
    have hnn : ∀ j ∈ (univ : Finset (Fin d)), 0 ≤ (mu j - mu (Fin.castLE hn k)) * ((x j ⬝ᵥ u k) * (x j ⬝ᵥ u k)) := by
      intro j _
      by_cases hj : j ∈ s
      · rw [hvan j hj, mul_zero, mul_zero]
      · refine mul_nonneg (sub_nonneg.2 (not_lt.1 fun h => hj (mem_filter.2 ⟨mem_univ _, h⟩))) (mul_self_nonneg _)
    intro j hj
    have := (sum_eq_zero_iff_of_nonneg hnn).1 hsum j (mem_univ _)
    rcases mul_eq_zero.1 this with h0 | h0
    · exact sub_eq_zero.1 h0
    · exact absurd (mul_self_eq_zero.1 h0) hj

/-- C140. In exact arithmetic, converged or not: the returned values are the lowest eigenvalues exactly if the last search space contains
orthonormal eigenvectors of these eigenvalues; the returned states are then such eigenvectors themselves. -/
theorem C140_lowest_iff (L : LinAlg K) (he : L.ExactEigh) (hq : L.ExactQr) (A : Matrix (Fin d) (Fin d) K) (hA : A.IsSymm)
    (nbVal : Nat) (guess : Option (List (Fin d → K))) (stp : Nat) (tol : K) (dimMax : Nat) (r : DavidsonResult K d)
    (h : modifiedDavidson L A nbVal guess stp tol dimMax = .ok r)
    (ho : 1 < min nbVal (if dimMax = 0 then d else dimMax) ∨ (∃ g, guess = some g ∧ Ortho g) ∨ 2 ≤ r.trace.length)
    (mu : Fin d → K) (x : Fin d → Fin d → K) (hx : ∀ j, A *ᵥ x j = mu j • x j) (hxo : ∀ i j, x i ⬝ᵥ x j = if i = j then 1 else 0)
    (hmu : Monotone mu) :
    ((∀ k (hk : k < r.eigvals.length), ∃ hd : k < d, r.eigvals[k] = mu ⟨k, hd⟩) ↔
      ∃ (W : List (Fin d → K)) (y : Fin r.eigvals.length → Fin d → K), r.trace.getLast? = some W ∧ (∀ i j, y i ⬝ᵥ y j = if i = j then 1 else 0) ∧
        ∀ k, InSpan W (y k) ∧ ∃ hd : (k : Nat) < d, A *ᵥ y k = mu ⟨k, hd⟩ • y k) ∧
    ((∀ k (hk : k < r.eigvals.length), ∃ hd : k < d, r.eigvals[k] = mu ⟨k, hd⟩) →
      r.eigvects.length = r.eigvals.length ∧ ∀ k (hk : k < r.eigvals.length) (hk' : k < r.eigvects.length),
        A *ᵥ r.eigvects[k] = r.eigvals[k] • r.eigvects[k]) := by
  obtain ⟨W, rs, w1, w2, w3⟩ := last_space hq h ho
  obtain ⟨_, l1, l2, _, _⟩ := ritz_ok w3
  obtain ⟨o1, o2, o3⟩ := ritz_exact he hA w2 w3
  have hlen : r.eigvects.length = r.eigvals.length := by omega
  have key : (∀ k (hk : k < r.eigvals.length), ∃ hd : k < d, r.eigvals[k] = mu ⟨k, hd⟩) →
      ∀ k (hk : k < r.eigvals.length) (hk' : k < r.eigvects.length), A *ᵥ r.eigvects[k] = r.eigvals[k] • r.eigvects[k] := by
    intro hv k hk hk'
    have hn : r.eigvals.length ≤ d := by
      by_contra hc
      obtain ⟨hd, _⟩ := hv (r.eigvals.length - 1) (by omega)
      omega
    have := lowest_vectors hA hx hxo hmu hn (fun i => r.eigvects[(i : Nat)]'(by rw [hlen]; exact i.2)) (fun i j => by
        have := o1 ⟨i, by rw [hlen]; exact i.2⟩ ⟨j, by rw [hlen]; exact j.2⟩
        simpa [Fin.ext_iff] using this) (fun i => by
        obtain ⟨_, e⟩ := hv i i.2
        rw [o2 i i.2, e]
        rfl) ⟨k, hk⟩
    obtain ⟨_, e⟩ := hv k hk
    rw [e]
    exact this
  refine ⟨⟨fun hv => ?_, ?_⟩, fun hv => ⟨hlen, key hv⟩⟩
  · refine ⟨W, fun i => r.eigvects[(i : Nat)]'(by rw [hlen]; exact i.2), w1, fun i j => ?_, fun i => ⟨?_, ?_⟩⟩
    · have := o1 ⟨i, by rw [hlen]; exact i.2⟩ ⟨j, by rw [hlen]; exact j.2⟩
      simpa [Fin.ext_iff] using this
    · exact (ritz_galerkin he hA w2 w3 i i.2 (by rw [hlen]; exact i.2)).1
    · obtain ⟨hd, e⟩ := hv i i.2
      exact ⟨hd, by rw [← e]; exact key hv i i.2 (by rw [hlen]; exact i.2)⟩
  · rintro ⟨W', y, g1, g2, g3⟩ k hk
    obtain rfl : W = W' := Option.some.inj (w1.symm.trans g1)
    obtain ⟨hd, hle⟩ := C99_sorted L he hq A hA nbVal guess stp tol dimMax r h ho mu x hx hxo (fun i j hij => hmu hij) k hk
    refine ⟨hd, le_antisymm ?_ hle⟩
    refine ritz_kth he hA w2 w3 k hk (fun i => y ⟨i, by omega⟩) (fun i => mu ⟨i, by omega⟩) (fun i => (g3 _).1) (fun i j => ?_) (fun i j => ?_) _ ?_
    · rw [g2]
      simp [Fin.ext_iff]
    · obtain ⟨_, e⟩ := (g3 ⟨j, by omega⟩).2
      rw [e, dotProduct_smul, g2, smul_eq_mul]
      by_cases hij : i = j
      · subst hij; simp
      · rw [if_neg hij, if_neg (by simpa [Fin.ext_iff] using hij), mul_zero]
    · intro i
      exact hmu (by rw [Fin.le_def]; show (i : Nat) ≤ k; omega)

end

/-- A run with two values of a 4 x 4 matrix meets the hypotheses, whatever the sorted eigenvectors. -/
example (mu : Fin 4 → ℝ) (x : Fin 4 → Fin 4 → ℝ) (hx : ∀ j, exMat *ᵥ x j = mu j • x j)
    (hxo : ∀ i j, x i ⬝ᵥ x j = if i = j then 1 else 0) (hmu : Monotone mu) :
    ∃ r, modifiedDavidson realLib exMat 2 none 2 (1 / 1000) 6 = .ok r ∧ r.converged = true ∧
      ((∀ k (hk : k < r.eigvals.length), ∃ hd : k < 4, r.eigvals[k] = mu ⟨k, hd⟩) ↔
        ∃ (W : List (Fin 4 → ℝ)) (y : Fin r.eigvals.length → Fin 4 → ℝ), r.trace.getLast? = some W ∧
          (∀ i j, y i ⬝ᵥ y j = if i = j then 1 else 0) ∧ ∀ k, InSpan W (y k) ∧ ∃ hd : (k : Nat) < 4, exMat *ᵥ y k = mu ⟨k, hd⟩ • y k) := by
  obtain ⟨r, h, hc⟩ := C69_converges realLib realLib_sqrt realLib_eigh realLib_qr realLib_rand exMat exMat_symm 2 2 (1 / 1000)
    (by norm_num) 6 (by omega) (by omega) (by omega) (by omega)
  exact ⟨r, h, hc, (C140_lowest_iff realLib realLib_eigh realLib_qr exMat exMat_symm 2 none 2 _ 6 r h (Or.inl (by simp)) mu x hx hxo hmu).1⟩

/-- Sorted orthonormal eigenvectors exist for every real symmetric matrix. -/
example := exists_sorted exMat exMat_symm

end TJ
