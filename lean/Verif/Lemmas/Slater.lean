/-
Determinants of standing waves: the states of several holes on a row without down spins.
-/
import Verif.Lemmas.Row
import Verif.Lemmas.FreeHole
import Mathlib.LinearAlgebra.Matrix.Determinant.Basic
import Mathlib.Data.Finset.Sort
import Mathlib.Data.Fin.Tuple.Sort
import Mathlib.LinearAlgebra.FiniteDimensional.Basic
import Mathlib.LinearAlgebra.Eigenspace.Basic

namespace TJ

open Finset

/-! ### Determinants -/

section
variable {n h : Nat}

/-- The determinant of the waves `s` at the sites `x`. -/
noncomputable def slater (u : Fin n → Fin n → ℝ) (s x : Fin h → Fin n) : ℝ := Matrix.det (Matrix.of fun k i => u (s i) (x k))

/-- Multiplying in turn each row by the weights of the columns multiplies the determinant by the sum of the weights. -/
theorem det_weights (M : Matrix (Fin h) (Fin h) ℝ) (d : Fin h → ℝ) :
    ∑ k, (M.updateRow k fun i => d i * M k i).det = (∑ i, d i) * M.det := by
  simp only [Matrix.det_apply]
  rw [sum_comm, mul_sum]
  refine sum_congr rfl fun π _ => ?_
  rw [← smul_sum]
  have : ∀ k, ∏ i, (M.updateRow k fun i => d i * M k i) (π i) i = d (π.symm k) * ∏ i, M (π i) i := by
    intro k
    rw [← mul_prod_erase univ _ (mem_univ (π.symm k)), ← mul_prod_erase univ (fun i => M (π i) i) (mem_univ (π.symm k)), ← mul_assoc]
    congr 1
    · rw [Equiv.apply_symm_apply, Matrix.updateRow_self]
    · refine prod_congr rfl fun i hi => ?_
      rw [Matrix.updateRow_ne]
      intro e
      exact (mem_erase.1 hi).1 (by rw [← e, Equiv.symm_apply_apply])
  rw [sum_congr rfl fun k _ => this k, ← sum_mul, Equiv.sum_comp π.symm d]
  rw [Units.smul_def, Units.smul_def, zsmul_eq_mul, zsmul_eq_mul]
  ring

theorem slater_update (u : Fin n → Fin n → ℝ) (s x : Fin h → Fin n) (k : Fin h) (y : Fin n) :
    slater u s (Function.update x k y) = ((Matrix.of fun k i => u (s i) (x k)).updateRow k fun i => u (s i) y).det := by
  unfold slater
  congr 1
  ext l i
  by_cases e : l = k
  · subst e
    rw [Matrix.updateRow_self, Matrix.of_apply, Function.update_self]
  · rw [Matrix.updateRow_ne e, Matrix.of_apply, Matrix.of_apply, Function.update_of_ne e]

/-- Equal sites. -/
theorem slater_same (u : Fin n → Fin n → ℝ) (s x : Fin h → Fin n) {k l : Fin h} (hkl : k ≠ l) (e : x k = x l) : slater u s x = 0 :=
  Matrix.det_zero_of_row_eq hkl (by funext i; simp only [Matrix.of_apply, e])

/-- The sites in another order. -/
theorem slater_perm (u : Fin n → Fin n → ℝ) (s x : Fin h → Fin n) (π : Equiv.Perm (Fin h)) :
    slater u s (x ∘ π) = (Equiv.Perm.sign π : ℤ) * slater u s x := by
  unfold slater
  rw [← Matrix.det_permute]
  rfl

/-- Each particle moves once, all moves added up. -/
theorem slater_move (P : Fin n → Fin n → ℝ) (u : Fin n → Fin n → ℝ) (ε : Fin n → ℝ) (hu : ∀ p x, ∑ y, P x y * u p y = ε p * u p x)
    (s x : Fin h → Fin n) : ∑ k, ∑ y, P (x k) y * slater u s (Function.update x k y) = (∑ i, ε (s i)) * slater u s x := by
  rw [show slater u s x = (Matrix.of fun k i => u (s i) (x k)).det from rfl, ← det_weights]
  refine sum_congr rfl fun k _ => ?_
  set M : Matrix (Fin h) (Fin h) ℝ := Matrix.of fun k i => u (s i) (x k) with hM
  have e : (fun i => ε (s i) * M k i) = ∑ y, P (x k) y • fun i => u (s i) y := by
    funext i
    rw [Finset.sum_apply, hM, Matrix.of_apply, ← hu]
    rfl
  rw [e]
  have lin : ∀ (t : Finset (Fin n)), (M.updateRow k (∑ y ∈ t, P (x k) y • fun i => u (s i) y)).det =
      ∑ y ∈ t, P (x k) y * (M.updateRow k fun i => u (s i) y).det := by
    intro t
    induction t using Finset.induction_on with
    | empty =>
      rw [sum_empty, sum_empty]
      exact Matrix.det_eq_zero_of_row_eq_zero k fun j => by rw [Matrix.updateRow_self]; rfl
    | insert a t ha ih =>
      rw [sum_insert ha, sum_insert ha, Matrix.det_updateRow_add, ih, Matrix.det_updateRow_smul]
  rw [lin]
  exact sum_congr rfl fun y _ => by rw [slater_update]

/-- Sum of a determinant with a product of waves over all positions. -/
theorem slater_overlap (u : Fin n → Fin n → ℝ) (s t : Fin h → Fin n) :
    ∑ x : Fin h → Fin n, slater u s x * ∏ k, u (t k) (x k) = Matrix.det (Matrix.of fun k i => ∑ y, u (s i) y * u (t k) y) := by
  unfold slater
  simp only [Matrix.det_apply, sum_mul]
  rw [sum_comm]
  refine sum_congr rfl fun π _ => ?_
  simp only [smul_mul_assoc]
  rw [← smul_sum]
  congr 1
  have e1 : ∀ x : Fin h → Fin n, (∏ i, (Matrix.of fun k i => u (s i) (x k)) (π i) i) * ∏ k, u (t k) (x k) =
      ∏ k, (u (s (π.symm k)) (x k) * u (t k) (x k)) := by
    intro x
    rw [prod_mul_distrib]
    congr 1
    rw [← Equiv.prod_comp π fun k => u (s (π.symm k)) (x k)]
    refine prod_congr rfl fun i _ => ?_
    rw [Equiv.symm_apply_apply]
    rfl
  rw [sum_congr rfl fun x _ => e1 x, ← Fintype.prod_sum (fun k y => u (s (π.symm k)) y * u (t k) y),
    ← Equiv.prod_comp π fun k => ∑ y, u (s (π.symm k)) y * u (t k) y]
  refine prod_congr rfl fun i _ => ?_
  rw [Equiv.symm_apply_apply]
  rfl

/-- Orthogonal waves: overlaps of increasing selections. -/
theorem slater_orth (u : Fin n → Fin n → ℝ) (N : Fin n → ℝ) (hu : ∀ p q, ∑ y, u p y * u q y = if p = q then N p else 0)
    {S T : Finset (Fin n)} (hS : S.card = h) (hT : T.card = h) :
    ∑ x : Fin h → Fin n, slater u (S.orderEmbOfFin hS) x * ∏ k, u (T.orderEmbOfFin hT k) (x k) =
      if S = T then ∏ k, N (S.orderEmbOfFin hS k) else 0 := by
  rw [slater_overlap]
  simp only [hu]
  split_ifs with e
  · subst e
    have : (Matrix.of fun k i => if S.orderEmbOfFin hS i = S.orderEmbOfFin hT k then N (S.orderEmbOfFin hS i) else 0) =
        Matrix.diagonal fun k => N (S.orderEmbOfFin hS k) := by
      ext k i
      rw [Matrix.of_apply, Matrix.diagonal_apply]
      by_cases e : k = i
      · subst e
        rw [if_pos rfl, if_pos rfl]
      · rw [if_neg e, if_neg fun g => e ((S.orderEmbOfFin hS).injective g).symm]
    rw [this, Matrix.det_diagonal]
  · -- some wave of S is not in T
    have hex : ∃ p ∈ S, p ∉ T := by
      by_contra hcon
      push Not at hcon
      exact e (eq_of_subset_of_card_le hcon (by rw [hS, hT]))
    obtain ⟨p, hp, hpT⟩ := hex
    obtain ⟨i, rfl⟩ : ∃ i, S.orderEmbOfFin hS i = p := by
      have : p ∈ Set.range (S.orderEmbOfFin hS) := by rw [Finset.range_orderEmbOfFin]; exact hp
      exact this
    refine Matrix.det_eq_zero_of_column_eq_zero i fun k => ?_
    rw [Matrix.of_apply, if_neg]
    intro g
    exact hpT (g ▸ T.orderEmbOfFin_mem hT k)

/-- Positions in increasing order determine all determinants. -/
theorem slater_of_sorted (u : Fin n → Fin n → ℝ) {ι : Type} [Fintype ι] (c : ι → ℝ) (s : ι → Fin h → Fin n)
    (h0 : ∀ (X : Finset (Fin n)) (hX : X.card = h), ∑ j, c j * slater u (s j) (X.orderEmbOfFin hX) = 0) (x : Fin h → Fin n) :
    ∑ j, c j * slater u (s j) x = 0 := by
  by_cases hx : Function.Injective x
  · have hcard : (univ.image x).card = h := by rw [card_image_of_injective _ hx, card_univ, Fintype.card_fin]
    have hsort : x ∘ Tuple.sort x = (univ.image x).orderEmbOfFin hcard := by
      refine Finset.orderEmbOfFin_unique hcard (fun k => mem_image_of_mem _ (mem_univ _)) ?_
      exact (Tuple.monotone_sort x).strictMono_of_injective (hx.comp (Tuple.sort x).injective)
    have := h0 _ hcard
    rw [← hsort] at this
    simp only [slater_perm] at this
    have e : ∀ j, c j * ((Equiv.Perm.sign (Tuple.sort x) : ℤ) * slater u (s j) x) = (Equiv.Perm.sign (Tuple.sort x) : ℤ) * (c j * slater u (s j) x) :=
      fun j => by ring
    rw [sum_congr rfl fun j _ => e j, ← mul_sum] at this
    refine (mul_eq_zero.1 this).resolve_left ?_
    exact_mod_cast (Equiv.Perm.sign (Tuple.sort x)).ne_zero
  · have hx' : ∃ k l, k ≠ l ∧ x k = x l := by
      unfold Function.Injective at hx
      push Not at hx
      obtain ⟨k, l, e, ne⟩ := hx
      exact ⟨k, l, ne, e⟩
    obtain ⟨k, l, ne, e⟩ := hx'
    exact sum_eq_zero fun j _ => by rw [slater_same u (s j) x ne e, mul_zero]

/-- The determinants of the selections are independent. -/
theorem slater_independent (u : Fin n → Fin n → ℝ) (N : Fin n → ℝ) (hN : ∀ p, N p ≠ 0)
    (hu : ∀ p q, ∑ y, u p y * u q y = if p = q then N p else 0) (c : {S : Finset (Fin n) // S.card = h} → ℝ)
    (h0 : ∀ (X : Finset (Fin n)) (hX : X.card = h), ∑ S, c S * slater u (S.1.orderEmbOfFin S.2) (X.orderEmbOfFin hX) = 0)
    (T : {S : Finset (Fin n) // S.card = h}) : c T = 0 := by
  have h1 := slater_of_sorted u c (fun S k => S.1.orderEmbOfFin S.2 k) h0
  have h2 : ∑ x : Fin h → Fin n, (∑ S, c S * slater u (S.1.orderEmbOfFin S.2) x) * ∏ k, u (T.1.orderEmbOfFin T.2 k) (x k) = 0 :=
    sum_eq_zero fun x _ => by rw [h1 x, zero_mul]
  simp only [sum_mul] at h2
  rw [sum_comm] at h2
  have h3 : ∀ S : {S : Finset (Fin n) // S.card = h}, ∑ x : Fin h → Fin n, c S * slater u (S.1.orderEmbOfFin S.2) x * ∏ k, u (T.1.orderEmbOfFin T.2 k) (x k) =
      if S = T then c S * ∏ k, N (S.1.orderEmbOfFin S.2 k) else 0 := by
    intro S
    simp only [mul_assoc]
    rw [← mul_sum, slater_orth u N hu S.2 T.2]
    by_cases e : S = T
    · subst e
      rw [if_pos rfl, if_pos rfl]
    · rw [if_neg e, if_neg fun g => e (Subtype.ext g), mul_zero]
  rw [sum_congr rfl fun S _ => h3 S, sum_ite_eq' univ T, if_pos (mem_univ T)] at h2
  exact (mul_eq_zero.1 h2).resolve_right (prod_ne_zero_iff.2 fun k _ => hN _)

end

/-! ### Waves on a row -/

theorem wave_orth (W : Nat) {p q : Nat} (hp : p < W) (hq : q < W) (hpq : p ≠ q) : ∑ x ∈ range W, wave W p x * wave W q x = 0 := by
  have e : 2 * waveCos W p * ∑ x ∈ range W, wave W p x * wave W q x = 2 * waveCos W q * ∑ x ∈ range W, wave W p x * wave W q x := by
    calc 2 * waveCos W p * ∑ x ∈ range W, wave W p x * wave W q x
        = ∑ x ∈ range W, (∑ y ∈ range W, pathEl x y * wave W p y) * wave W q x := by
          rw [mul_sum]
          refine sum_congr rfl fun x hx => ?_
          rw [wave_eigen W p x (mem_range.1 hx)]
          ring
      _ = ∑ y ∈ range W, wave W p y * ∑ x ∈ range W, pathEl y x * wave W q x := by
          simp only [sum_mul, mul_sum]
          rw [sum_comm]
          refine sum_congr rfl fun y _ => sum_congr rfl fun x _ => ?_
          have : pathEl x y = pathEl y x := by unfold pathEl; exact if_congr or_comm rfl rfl
          rw [this]
          ring
      _ = _ := by
          rw [mul_sum]
          refine sum_congr rfl fun y hy => ?_
          rw [wave_eigen W q y (mem_range.1 hy)]
          ring
  have h0 : (waveCos W p - waveCos W q) * ∑ x ∈ range W, wave W p x * wave W q x = 0 := by linarith
  refine (mul_eq_zero.1 h0).resolve_left (sub_ne_zero.2 fun g => hpq (waveCos_inj hp hq g))

theorem wave_norm (W : Nat) {p : Nat} (hp : p < W) : 0 < ∑ x ∈ range W, wave W p x * wave W p x :=
  sum_pos' (fun x _ => mul_self_nonneg _) ⟨0, mem_range.2 (by omega), mul_pos (wave_pos W p hp) (wave_pos W p hp)⟩

/-! ### Eigenspaces -/

/-- With a basis of eigenvectors the multiplicity counts the basis vectors. -/
theorem finrank_eigenspace_basis {V ι : Type} [AddCommGroup V] [Module ℝ V] [Fintype ι] [DecidableEq ι] (b : Module.Basis ι ℝ V)
    (f : Module.End ℝ V) (l : ι → ℝ) (hf : ∀ i, f (b i) = l i • b i) (μ : ℝ) [DecidablePred fun i => l i = μ] :
    Module.finrank ℝ (Module.End.eigenspace f μ) = (univ.filter fun i => l i = μ).card := by
  have hspan : Module.End.eigenspace f μ = Submodule.span ℝ (Set.range fun i : {i // l i = μ} => b i) := by
    apply le_antisymm
    · intro x hx
      rw [Module.End.mem_eigenspace_iff] at hx
      have hc : ∀ i, l i ≠ μ → b.repr x i = 0 := by
        intro i hi
        have h1 : f x = ∑ j, b.repr x j • l j • b j := by
          conv_lhs => rw [← b.sum_repr x, map_sum]
          exact sum_congr rfl fun j _ => by rw [map_smul, hf]
        have h2 : b.repr (f x) i = b.repr x i * l i := by
          rw [h1, map_sum, Finsupp.finsetSum_apply]
          rw [sum_eq_single i]
          · simp
          · intro j _ hj
            simp [hj]
          · intro h; exact absurd (mem_univ i) h
        rw [hx, map_smul, Finsupp.smul_apply, smul_eq_mul] at h2
        have h3 : (l i - μ) * b.repr x i = 0 := by linarith
        exact (mul_eq_zero.1 h3).resolve_left (sub_ne_zero.2 hi)
      rw [← b.sum_repr x]
      refine Submodule.sum_mem _ fun i _ => ?_
      by_cases hi : l i = μ
      · exact Submodule.smul_mem _ _ (Submodule.subset_span ⟨⟨i, hi⟩, rfl⟩)
      · rw [hc i hi, zero_smul]
        exact Submodule.zero_mem _
    · rw [Submodule.span_le]
      rintro _ ⟨⟨i, hi⟩, rfl⟩
      show b i ∈ Module.End.eigenspace f μ
      rw [Module.End.mem_eigenspace_iff, hf, hi]
  have hli : LinearIndependent ℝ fun i : {i // l i = μ} => b i := b.linearIndependent.comp _ Subtype.val_injective
  rw [hspan, finrank_span_eq_card hli, Fintype.card_subtype]

end TJ
