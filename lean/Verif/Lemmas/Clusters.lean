/-
Linear algebra behind the relabelling search of `is_bond_linear`: matrices of the same
spectrum, orthogonal matrices whose entries round to 0 or 1, and integer matrices related
by them.
-/
import Verif.Model.Clusters
import Verif.Spec.Clusters
import Verif.Lemmas.Linear
import Mathlib.LinearAlgebra.Matrix.Charpoly.Basic
import Mathlib.LinearAlgebra.Matrix.NonsingularInverse
import Mathlib.Algebra.Polynomial.Roots
import Mathlib.Data.List.Sort
import Mathlib.Data.Fintype.EquivFin
import Mathlib.Tactic.Linarith
import Mathlib.Tactic.Ring
import Mathlib.Tactic.NormNum
import Mathlib.Tactic.Positivity

namespace TJ

open Matrix

section Field

variable {K : Type} [Field K]

theorem charpoly_orth {n : Nat} {U : Matrix (Fin n) (Fin n) K} (hU : U * Uᵀ = 1) (d : Fin n → K) :
    (U * (diagonal d * Uᵀ)).charpoly = (diagonal d).charpoly := by
  rw [Matrix.charpoly_mul_comm, Matrix.mul_assoc, mul_eq_one_comm.1 hU, Matrix.mul_one]

/-- Two sorted diagonalisations of a matrix and of a relabelling of it have the same
eigenvalues. -/
theorem same_spectrum [LinearOrder K] {n : Nat} {A B U W : Matrix (Fin n) (Fin n) K} {d d' : Fin n → K}
    (hU : U * Uᵀ = 1) (hW : W * Wᵀ = 1) (hA : A = U * (diagonal d * Uᵀ)) (hB : B = W * (diagonal d' * Wᵀ))
    (hd : Monotone d) (hd' : Monotone d') (e : Fin n ≃ Fin n) (hAB : A = reindex e e B) : d = d' := by
  have h1 : (diagonal d).charpoly = (diagonal d').charpoly := by
    rw [← charpoly_orth hU, ← charpoly_orth hW, ← hA, ← hB, hAB, charpoly_reindex]
  rw [charpoly_diagonal, charpoly_diagonal] at h1
  have h2 : ∀ f : Fin n → K, (∏ i, (Polynomial.X - Polynomial.C (f i))).roots = Finset.univ.val.map f := by
    intro f
    have := Polynomial.roots_multiset_prod_X_sub_C (Finset.univ.val.map f)
    rw [Multiset.map_map] at this
    exact this
  have h3 : Finset.univ.val.map d = Finset.univ.val.map d' := by rw [← h2, ← h2, h1]
  rw [Fin.univ_val_map, Fin.univ_val_map, Multiset.coe_eq_coe] at h3
  have h4 := h3.eq_of_sortedLE (List.sortedLE_ofFn_iff.2 hd) (List.sortedLE_ofFn_iff.2 hd')
  exact List.ofFn_injective h4

end Field

section Ordered

variable {K : Type} [Field K] [LinearOrder K] [IsStrictOrderedRing K]

theorem eps_small {n : Nat} {ε : K} (hn : 1 ≤ n) (h0 : 0 ≤ ε) (h : 3 * (n : K) ^ 2 * ε < 1) : 3 * ε < 1 := by
  have h1 : (1 : K) ≤ (n : K) := by exact_mod_cast hn
  have h2 : (1 : K) ≤ (n : K) ^ 2 := by nlinarith
  nlinarith

/-- A vector of norm one whose entries are near 0 or 1 has exactly one entry near 1. -/
theorem unique_one {n : Nat} {ε : K} (h0 : 0 ≤ ε) (h : 3 * (n : K) ^ 2 * ε < 1) (x : Fin n → K)
    (hx : ∑ i, x i * x i = 1) (z : ∀ i, |x i| ≤ ε ∨ |x i - 1| ≤ ε) : ∃! i, |x i - 1| ≤ ε := by
  have hn : 1 ≤ n := by
    rcases Nat.eq_zero_or_pos n with rfl | h
    · simp at hx
    · exact h
  have hs := eps_small hn h0 h
  have hex : ∃ i, |x i - 1| ≤ ε := by
    by_contra hc
    push Not at hc
    have hle : ∀ i, x i * x i ≤ ε * ε := by
      intro i
      have : |x i| ≤ ε := (z i).resolve_right (fun k => absurd k (not_le.2 (hc i)))
      rw [← abs_mul_abs_self (x i)]
      exact mul_le_mul this this (abs_nonneg _) h0
    have hsum : ∑ i, x i * x i ≤ (n : K) * (ε * ε) := by
      calc ∑ i, x i * x i ≤ ∑ _i : Fin n, ε * ε := Finset.sum_le_sum (fun i _ => hle i)
        _ = (n : K) * (ε * ε) := by simp
    have h1 : (1 : K) ≤ (n : K) := by exact_mod_cast hn
    have h2 : (n : K) ≤ (n : K) ^ 2 := by nlinarith
    have h3 : (n : K) * (ε * ε) ≤ (n : K) ^ 2 * ε * ε := by
      have := mul_le_mul_of_nonneg_right h2 (mul_nonneg h0 h0)
      linarith [this, show (n : K) ^ 2 * ε * ε = (n : K) ^ 2 * (ε * ε) by ring]
    have h4 : (n : K) ^ 2 * ε * ε ≤ 1 * ε := by
      apply mul_le_mul_of_nonneg_right _ h0
      linarith [mul_nonneg (sq_nonneg (n : K)) h0]
    rw [hx] at hsum
    linarith
  obtain ⟨i, hi⟩ := hex
  refine ⟨i, hi, ?_⟩
  intro j hj
  by_contra hne
  have h2 : 2 ≤ n := by
    rcases Nat.lt_or_ge n 2 with h | h
    · exact absurd (Fin.ext (by omega)) hne
    · exact h
  have h2' : (2 : K) ≤ (n : K) := by exact_mod_cast h2
  have h4 : (4 : K) ≤ (n : K) ^ 2 := by nlinarith
  have h12 : 12 * ε < 1 := by nlinarith
  have hsq : ∀ k, |x k - 1| ≤ ε → 3 / 4 < x k * x k := by
    intro k hk
    have := (abs_le.1 hk).1
    have h5 : 11 / 12 < x k := by linarith
    nlinarith
  have hpair : x i * x i + x j * x j ≤ ∑ k, x k * x k := by
    have := Finset.sum_le_sum_of_subset_of_nonneg (f := fun k => x k * x k) (Finset.subset_univ {i, j})
      (fun k _ _ => mul_self_nonneg _)
    rwa [Finset.sum_pair (Ne.symm hne)] at this
  rw [hx] at hpair
  have a := hsq i hi
  have b := hsq j hj
  linarith

/-- An orthogonal matrix whose entries are near 0 or 1 is near a permutation matrix. -/
theorem near_perm {n : Nat} {ε : K} (h0 : 0 ≤ ε) (h : 3 * (n : K) ^ 2 * ε < 1) (T : Matrix (Fin n) (Fin n) K)
    (hT : T * Tᵀ = 1) (z : ∀ i j, |T i j| ≤ ε ∨ |T i j - 1| ≤ ε) :
    ∃ σ : Fin n → Fin n, Function.Injective σ ∧ ∀ i j, |T i j - 1| ≤ ε ↔ i = σ j := by
  have hT' := mul_eq_one_comm.1 hT
  have hcol : ∀ j, ∃! i, |T i j - 1| ≤ ε := by
    intro j
    apply unique_one h0 h (fun i => T i j) _ (fun i => z i j)
    have := congrFun (congrFun hT' j) j
    rw [Matrix.mul_apply, Matrix.one_apply_eq] at this
    exact this
  have hrow : ∀ i, ∃! j, |T i j - 1| ≤ ε := by
    intro i
    apply unique_one h0 h (fun j => T i j) _ (fun j => z i j)
    have := congrFun (congrFun hT i) i
    rw [Matrix.mul_apply, Matrix.one_apply_eq] at this
    exact this
  choose σ h1 h2 using hcol
  refine ⟨σ, ?_, ?_⟩
  · intro a b hab
    have ha := h1 a
    have hb := h1 b
    rw [hab] at ha
    exact (hrow (σ b)).unique ha hb
  · intro i j
    constructor
    · intro k
      exact h2 j i k
    · rintro rfl
      exact h1 j

/-- Integer matrices conjugated by a matrix near a permutation are related by the
permutation. -/
theorem conj_perm {n : Nat} {ε : K} (h0 : 0 ≤ ε) (h : 3 * (n : K) ^ 2 * ε < 1) (T : Matrix (Fin n) (Fin n) K)
    (A B : Fin n → Fin n → Int) (hA : ∀ i j, A i j = 0 ∨ A i j = 1)
    (hTA : ∀ i j, (B i j : K) = ∑ k, ∑ l, T i k * ((A k l : K) * T j l))
    (z : ∀ i j, |T i j| ≤ ε ∨ |T i j - 1| ≤ ε) (σ : Fin n → Fin n) (hinj : Function.Injective σ)
    (hσ : ∀ i j, |T i j - 1| ≤ ε ↔ i = σ j) (a b : Fin n) : B (σ a) (σ b) = A a b := by
  have hn : 1 ≤ n := Nat.lt_of_le_of_lt (Nat.zero_le _) a.2
  have hs := eps_small hn h0 h
  have hδ : ∀ a i, |T (σ a) i - (if i = a then 1 else 0)| ≤ ε := by
    intro a i
    by_cases k : i = a
    · rw [if_pos k]
      exact (hσ _ _).2 (by rw [k])
    · rw [if_neg k, sub_zero]
      refine (z _ _).resolve_right (fun w => k ?_)
      exact (hinj ((hσ _ _).1 w)).symm
  have hsum : ∑ k, ∑ l, (if k = a then (1 : K) else 0) * ((A k l : K) * (if l = b then 1 else 0)) = (A a b : K) := by
    simp
  have hterm : ∀ k l, |T (σ a) k * ((A k l : K) * T (σ b) l) -
      (if k = a then (1 : K) else 0) * ((A k l : K) * (if l = b then 1 else 0))| ≤ 3 * ε := by
    intro k l
    have u := hδ a k
    have v := hδ b l
    have hpos : 0 ≤ 3 * ε := by linarith
    rcases hA k l with e | e
    · rw [e]; simpa using hpos
    · rw [e, Int.cast_one, one_mul, one_mul]
      generalize T (σ a) k = x at *
      generalize T (σ b) l = y at *
      have hu1 : |(if k = a then (1 : K) else 0)| ≤ 1 := by split <;> simp
      have hv1 : |(if l = b then (1 : K) else 0)| ≤ 1 := by split <;> simp
      generalize (if k = a then (1 : K) else 0) = p at *
      generalize (if l = b then (1 : K) else 0) = q at *
      have e2 : x * y - p * q = (x - p) * (y - q) + p * (y - q) + (x - p) * q := by ring
      rw [e2]
      have t1 : |(x - p) * (y - q)| ≤ ε := by
        rw [abs_mul]
        calc |x - p| * |y - q| ≤ ε * 1 := mul_le_mul u (by linarith) (abs_nonneg _) h0
          _ = ε := mul_one _
      have t2 : |p * (y - q)| ≤ ε := by
        rw [abs_mul]
        calc |p| * |y - q| ≤ 1 * ε := mul_le_mul hu1 v (abs_nonneg _) zero_le_one
          _ = ε := one_mul _
      have t3 : |(x - p) * q| ≤ ε := by
        rw [abs_mul]
        calc |x - p| * |q| ≤ ε * 1 := mul_le_mul u hv1 (abs_nonneg _) h0
          _ = ε := mul_one _
      calc _ ≤ |(x - p) * (y - q) + p * (y - q)| + |(x - p) * q| := abs_add_le _ _
        _ ≤ |(x - p) * (y - q)| + |p * (y - q)| + |(x - p) * q| := by linarith [abs_add_le ((x - p) * (y - q)) (p * (y - q))]
        _ ≤ 3 * ε := by linarith
  have hdiff : |((B (σ a) (σ b) - A a b : Int) : K)| < 1 := by
    rw [Int.cast_sub, hTA, ← hsum, ← Finset.sum_sub_distrib]
    calc _ ≤ ∑ k : Fin n, (n : K) * (3 * ε) := by
          refine (Finset.abs_sum_le_sum_abs _ _).trans (Finset.sum_le_sum (fun k _ => ?_))
          rw [← Finset.sum_sub_distrib]
          refine (Finset.abs_sum_le_sum_abs _ _).trans ?_
          calc _ ≤ ∑ _l : Fin n, 3 * ε := Finset.sum_le_sum (fun l _ => hterm k l)
            _ = (n : K) * (3 * ε) := by simp
      _ = 3 * (n : K) ^ 2 * ε := by simp; ring
      _ < 1 := h
  have : |B (σ a) (σ b) - A a b| < 1 := by exact_mod_cast hdiff
  have := Int.abs_lt_one_iff.1 this
  omega

end Ordered

/-! ### The search -/

section Search

variable {K : Type} [Field K] [DecidableEq K]

theorem mem_signVectors {n : Nat} : ∀ {s : List Int}, s ∈ signVectors n ↔ s.length = n ∧ ∀ x ∈ s, x = 1 ∨ x = -1 := by
  induction n with
  | zero =>
    intro s
    constructor
    · intro h
      rw [show signVectors 0 = [[]] from rfl, List.mem_singleton] at h
      subst h
      simp
    · rintro ⟨h, _⟩
      rw [List.length_eq_zero_iff.1 h]
      simp [signVectors]
  | succ n ih =>
    intro s
    rw [show signVectors (n + 1) = [1, -1].flatMap (fun (s : Int) => (signVectors n).map (fun l => s :: l)) from rfl]
    simp only [List.mem_flatMap, List.mem_map, List.mem_cons, List.not_mem_nil, or_false]
    constructor
    · rintro ⟨x, hx, l, hl, rfl⟩
      obtain ⟨h1, h2⟩ := ih.1 hl
      refine ⟨by simp [h1], ?_⟩
      intro y hy
      rcases List.mem_cons.1 hy with rfl | hy
      · exact hx
      · exact h2 y hy
    · rintro ⟨h1, h2⟩
      match s, h1, h2 with
      | x :: l, h1, h2 =>
        exact ⟨x, h2 x (by simp), l, ih.2 ⟨by simpa using h1, fun y hy => h2 y (List.mem_cons_of_mem _ hy)⟩, rfl⟩

theorem acceptedTransfer_iff {rnd : K → K} {n : Nat} {T : Nat → Nat → K} : acceptedTransfer rnd n T = true ↔
    rnd (T 0 0) = 1 ∧ ∀ i < n, ∀ j < n, rnd (T i j) = 0 ∨ rnd (T i j) = 1 := by
  unfold acceptedTransfer
  simp only [Bool.and_eq_true, decide_eq_true_eq, List.all_eq_true, List.mem_range]

theorem search_accepted {rnd : K → K} {n : Nat} {W U : Nat → Nat → K} : ∀ {l : List (List Int)} {last : Nat → Nat → K},
    (∃ s ∈ l, acceptedTransfer rnd n (transferMatrix n W U s) = true) →
    ∃ s ∈ l, acceptedTransfer rnd n (transferMatrix n W U s) = true ∧
      transferSearch rnd n W U l last = transferMatrix n W U s := by
  intro l
  induction l with
  | nil => rintro last ⟨s, hs, _⟩; cases hs
  | cons t rest ih =>
    rintro last ⟨s, hs, ha⟩
    unfold transferSearch
    dsimp only
    by_cases k : acceptedTransfer rnd n (transferMatrix n W U t) = true
    · rw [if_pos k]
      exact ⟨t, by simp, k, rfl⟩
    · rw [if_neg k]
      rcases List.mem_cons.1 hs with rfl | hs
      · exact absurd ha k
      · obtain ⟨s', h1, h2, h3⟩ := ih (last := transferMatrix n W U t) ⟨s, hs, ha⟩
        exact ⟨s', List.mem_cons_of_mem _ h1, h2, h3⟩

theorem search_none {rnd : K → K} {n : Nat} {W U : Nat → Nat → K} : ∀ {l : List (List Int)} {t : List Int} {last : Nat → Nat → K},
    (∀ s ∈ l ++ [t], acceptedTransfer rnd n (transferMatrix n W U s) = false) →
    transferSearch rnd n W U (l ++ [t]) last = transferMatrix n W U t := by
  intro l
  induction l with
  | nil =>
    intro t last h
    rw [List.nil_append]
    unfold transferSearch
    dsimp only
    rw [if_neg (by rw [h t (by simp)]; simp)]
    rfl
  | cons u rest ih =>
    intro t last h
    rw [List.cons_append]
    unfold transferSearch
    dsimp only
    rw [if_neg (by rw [h u (by simp)]; simp)]
    exact ih (fun s hs => h s (List.mem_cons_of_mem _ hs))

theorem signVectors_last (n : Nat) : ∃ l, signVectors n = l ++ [List.replicate n (-1)] := by
  induction n with
  | zero => exact ⟨[], rfl⟩
  | succ n ih =>
    obtain ⟨l, hl⟩ := ih
    refine ⟨(signVectors n).map (fun l => 1 :: l) ++ l.map (fun l => -1 :: l), ?_⟩
    show (signVectors n).map (fun l => 1 :: l) ++ ((signVectors n).map (fun l => -1 :: l) ++ []) = _
    rw [List.append_nil, List.append_assoc]
    congr 1
    rw [hl]
    simp [List.replicate_succ]

end Search

/-! ### From indices to matrices -/

section Bridge

variable {K : Type} [Field K] [LinearOrder K] [IsStrictOrderedRing K]

/-- The `n x n` matrix of a function of two indices. -/
def finMat (n : Nat) (f : Nat → Nat → K) : Matrix (Fin n) (Fin n) K := Matrix.of (fun i j => f i j)

theorem EighOf.mat {n : Nat} {A : Nat → Nat → Int} {U : Nat → Nat → K} {d : Nat → K} (h : EighOf n A U d) :
    finMat n U * (finMat n U)ᵀ = 1 ∧
    finMat n (fun i j => (A i j : K)) = finMat n U * (diagonal (fun k : Fin n => d k) * (finMat n U)ᵀ) ∧
    Monotone (fun k : Fin n => d k) := by
  refine ⟨?_, ?_, ?_⟩
  · ext i j
    rw [Matrix.mul_apply, Matrix.one_apply]
    have := h.orth i i.2 j j.2
    rw [Finset.sum_range] at this
    simp only [← Fin.ext_iff] at this
    exact this
  · ext i j
    rw [Matrix.mul_apply]
    have := h.diag i i.2 j j.2
    rw [Finset.sum_range] at this
    refine this.trans (Finset.sum_congr rfl (fun k _ => ?_))
    rw [Matrix.diagonal_mul]
    rfl
  · intro k l hkl
    exact h.asc k k.2 l l.2 hkl

theorem transfer_mat {n : Nat} {W U : Nat → Nat → K} (s : List Int) : finMat n (transferMatrix n W U s) =
    finMat n W * (diagonal (fun k : Fin n => ((s.getD k 0 : Int) : K)) * (finMat n U)ᵀ) := by
  ext i j
  rw [Matrix.mul_apply]
  show transferMatrix n W U s i j = _
  unfold transferMatrix
  have hs : ∀ f : Nat → K, ((List.range n).map f).sum = ∑ k ∈ Finset.range n, f k := by
    intro f
    clear i j
    induction n with
    | zero => simp
    | succ n ih => rw [List.range_succ, List.map_append, List.sum_append, ih, Finset.sum_range_succ]; simp
  rw [hs, Finset.sum_range]
  refine Finset.sum_congr rfl (fun k _ => ?_)
  rw [Matrix.diagonal_mul]
  rfl

/-- The eigenvalues of a relabelled matrix are those of the matrix. -/
theorem common_spectrum {n : Nat} {A B : Nat → Nat → Int} {U W : Nat → Nat → K} {d d' : Nat → K} {π : Nat → Nat}
    (hU : EighOf n A U d) (hW : EighOf n B W d') (hlt : ∀ i < n, π i < n) (hinj : ∀ i < n, ∀ j < n, π i = π j → i = j)
    (hAB : ∀ i < n, ∀ j < n, A i j = B (π i) (π j)) : (fun k : Fin n => d k) = (fun k : Fin n => d' k) := by
  obtain ⟨u1, u2, u3⟩ := hU.mat
  obtain ⟨w1, w2, w3⟩ := hW.mat
  let f : Fin n → Fin n := fun i => ⟨π i, hlt i i.2⟩
  have hf : Function.Bijective f := by
    apply Finite.injective_iff_bijective.1
    intro i j h
    exact Fin.ext (hinj i i.2 j j.2 (Fin.ext_iff.1 h))
  apply same_spectrum u1 w1 u2 w2 u3 w3 (Equiv.ofBijective f hf).symm
  ext i j
  show (A i j : K) = (B (π i) (π j) : K)
  rw [hAB i i.2 j j.2]

/-- When the eigenvalues are pairwise different, the matrix of the relabelling is one of the transfer matrices. -/
theorem simple_transfer {n : Nat} {A B : Nat → Nat → Int} {U W : Nat → Nat → K} {d d' : Nat → K} {π : Nat → Nat}
    (hU : EighOf n A U d) (hW : EighOf n B W d') (hlt : ∀ i < n, π i < n) (hinj : ∀ i < n, ∀ j < n, π i = π j → i = j)
    (hAB : ∀ i < n, ∀ j < n, A i j = B (π i) (π j)) (hd : ∀ k < n, ∀ l < n, d k = d l → k = l) :
    ∃ s ∈ signVectors n, ∀ i < n, ∀ j < n, transferMatrix n W U s i j = if i = π j then 1 else 0 := by
  obtain ⟨u1, u2, u3⟩ := hU.mat
  obtain ⟨w1, w2, w3⟩ := hW.mat
  have hdd := common_spectrum hU hW hlt hinj hAB
  rw [← hdd] at w2
  let f : Fin n → Fin n := fun i => ⟨π i, hlt i i.2⟩
  have hf : Function.Bijective f := by
    apply Finite.injective_iff_bijective.1
    intro i j h
    exact Fin.ext (hinj i i.2 j j.2 (Fin.ext_iff.1 h))
  let e := Equiv.ofBijective f hf
  have hA : finMat n (fun i j => (A i j : K)) = (finMat n (fun i j => (B i j : K))).submatrix e e := by
    ext i j
    show (A i j : K) = (B (π i) (π j) : K)
    rw [hAB i i.2 j j.2]
  obtain ⟨V, hV⟩ : ∃ V : Matrix (Fin n) (Fin n) K, V = (1 : Matrix (Fin n) (Fin n) K).submatrix id e := ⟨_, rfl⟩
  have hVV : V * Vᵀ = 1 := by
    rw [hV, Matrix.transpose_submatrix, Matrix.submatrix_mul_equiv, Matrix.transpose_one, Matrix.one_mul]
    rfl
  have hVA : V * finMat n (fun i j => (A i j : K)) = finMat n (fun i j => (B i j : K)) * V := by
    rw [hA, hV, Matrix.submatrix_mul_equiv, Matrix.one_mul]
    conv_rhs => rw [← Matrix.submatrix_id_id (finMat n (fun i j => (B i j : K)))]
    rw [← Equiv.coe_refl, Matrix.submatrix_mul_equiv, Matrix.mul_one]
  have hVe : ∀ i j : Fin n, V i j = if (i : Nat) = π j then 1 else 0 := by
    intro i j
    rw [hV]
    show (1 : Matrix (Fin n) (Fin n) K) i (f j) = _
    rw [Matrix.one_apply]
    simp only [f, Fin.ext_iff]
  have u1' := mul_eq_one_comm.1 u1
  have w1' := mul_eq_one_comm.1 w1
  obtain ⟨M, hM⟩ : ∃ M : Matrix (Fin n) (Fin n) K, M = (finMat n W)ᵀ * (V * finMat n U) := ⟨_, rfl⟩
  have hcomm : M * diagonal (fun k : Fin n => d k) = diagonal (fun k : Fin n => d k) * M := by
    rw [hM]
    have a1 : finMat n U * diagonal (fun k : Fin n => d k) = finMat n (fun i j => (A i j : K)) * finMat n U := by
      rw [u2]
      simp only [Matrix.mul_assoc]
      rw [u1', Matrix.mul_one]
    have a2 : diagonal (fun k : Fin n => d k) * (finMat n W)ᵀ = (finMat n W)ᵀ * finMat n (fun i j => (B i j : K)) := by
      rw [w2, ← Matrix.mul_assoc, w1', Matrix.one_mul]
    rw [Matrix.mul_assoc, Matrix.mul_assoc, a1, ← Matrix.mul_assoc V, hVA, ← Matrix.mul_assoc, ← Matrix.mul_assoc,
      ← Matrix.mul_assoc, a2]
    simp only [Matrix.mul_assoc]
  have hoff : ∀ i j, i ≠ j → M i j = 0 := by
    intro i j hij
    have := congrFun (congrFun hcomm i) j
    rw [Matrix.mul_diagonal, Matrix.diagonal_mul] at this
    have h2 : M i j * (d j - d i) = 0 := by rw [mul_sub, this]; ring
    rcases mul_eq_zero.1 h2 with k | k
    · exact k
    · exact absurd (Fin.ext (hd i i.2 j j.2 (sub_eq_zero.1 k).symm)) hij
  have hdiag : M = diagonal (fun i => M i i) := by
    ext i j
    rw [Matrix.diagonal_apply]
    split_ifs with k
    · rw [k]
    · exact hoff i j k
  have hMM : M * Mᵀ = 1 := by
    rw [hM, Matrix.transpose_mul, Matrix.transpose_mul, Matrix.transpose_transpose]
    calc (finMat n W)ᵀ * (V * finMat n U) * ((finMat n U)ᵀ * Vᵀ * finMat n W) =
        (finMat n W)ᵀ * (V * ((finMat n U * (finMat n U)ᵀ) * (Vᵀ * finMat n W))) := by simp only [Matrix.mul_assoc]
      _ = (finMat n W)ᵀ * ((V * Vᵀ) * finMat n W) := by rw [u1, Matrix.one_mul, Matrix.mul_assoc]
      _ = 1 := by rw [hVV, Matrix.one_mul, w1']
  have hsq : ∀ i, M i i * M i i = 1 := by
    intro i
    have := congrFun (congrFun hMM i) i
    rw [hdiag, Matrix.diagonal_transpose, Matrix.diagonal_mul_diagonal, Matrix.diagonal_apply_eq, Matrix.one_apply_eq] at this
    exact this
  have hs : List.ofFn (fun i : Fin n => if M i i = 1 then (1 : Int) else -1) ∈ signVectors n := by
    rw [mem_signVectors]
    refine ⟨List.length_ofFn, ?_⟩
    intro x hx
    obtain ⟨i, rfl⟩ := List.mem_ofFn.1 hx
    split_ifs
    · exact Or.inl rfl
    · exact Or.inr rfl
  refine ⟨_, hs, ?_⟩
  have hT : finMat n (transferMatrix n W U (List.ofFn (fun i : Fin n => if M i i = 1 then (1 : Int) else -1))) = V := by
    rw [transfer_mat]
    have : (fun k : Fin n => (((List.ofFn (fun i : Fin n => if M i i = 1 then (1 : Int) else -1)).getD k 0 : Int) : K)) =
        fun k => M k k := by
      funext k
      have : (List.ofFn (fun i : Fin n => if M i i = 1 then (1 : Int) else -1)).getD k 0 = if M k k = 1 then (1 : Int) else -1 := by
        simp [List.getD]
      rw [this]
      split_ifs with z
      · simp [z]
      · rcases mul_self_eq_one_iff.1 (hsq k) with e | e
        · exact absurd e z
        · simp [e]
    rw [this, ← hdiag, hM]
    calc finMat n W * ((finMat n W)ᵀ * (V * finMat n U) * (finMat n U)ᵀ) =
        (finMat n W * (finMat n W)ᵀ) * (V * (finMat n U * (finMat n U)ᵀ)) := by simp only [Matrix.mul_assoc]
      _ = V := by rw [w1, u1, Matrix.one_mul, Matrix.mul_one]
  intro i hi j hj
  have := congrFun (congrFun hT ⟨i, hi⟩) ⟨j, hj⟩
  rw [hVe] at this
  exact this

/-- Every transfer matrix is orthogonal and conjugates the bond matrix to the one of the
periodic lattice. -/
theorem transfer_conj {n : Nat} {A B : Nat → Nat → Int} {U W : Nat → Nat → K} {d d' : Nat → K} {π : Nat → Nat}
    (hU : EighOf n A U d) (hW : EighOf n B W d') (hlt : ∀ i < n, π i < n) (hinj : ∀ i < n, ∀ j < n, π i = π j → i = j)
    (hAB : ∀ i < n, ∀ j < n, A i j = B (π i) (π j)) {s : List Int} (hs : s ∈ signVectors n) :
    finMat n (transferMatrix n W U s) * (finMat n (transferMatrix n W U s))ᵀ = 1 ∧
    ∀ i j : Fin n, (B i j : K) = ∑ k : Fin n, ∑ l : Fin n,
      finMat n (transferMatrix n W U s) i k * ((A k l : K) * finMat n (transferMatrix n W U s) j l) := by
  obtain ⟨u1, u2, u3⟩ := hU.mat
  obtain ⟨w1, w2, w3⟩ := hW.mat
  have hd := common_spectrum hU hW hlt hinj hAB
  obtain ⟨hs1, hs2⟩ := mem_signVectors.1 hs
  have hsq : diagonal (fun k : Fin n => ((s.getD k 0 : Int) : K)) * diagonal (fun k : Fin n => ((s.getD k 0 : Int) : K)) = 1 := by
    rw [Matrix.diagonal_mul_diagonal, ← Matrix.diagonal_one]
    congr 1
    funext k
    have hk : (k : Nat) < s.length := by rw [hs1]; exact k.2
    have : s.getD k 0 = s[(k : Nat)] := by simp [List.getD, hk]
    rw [this]
    rcases hs2 _ (List.getElem_mem hk) with e | e <;> rw [e] <;> simp
  have hST : (diagonal (fun k : Fin n => ((s.getD k 0 : Int) : K)))ᵀ = diagonal (fun k : Fin n => ((s.getD k 0 : Int) : K)) :=
    Matrix.diagonal_transpose _
  have hSD : diagonal (fun k : Fin n => ((s.getD k 0 : Int) : K)) * diagonal (fun k : Fin n => d k) =
      diagonal (fun k : Fin n => d k) * diagonal (fun k : Fin n => ((s.getD k 0 : Int) : K)) := by
    rw [Matrix.diagonal_mul_diagonal, Matrix.diagonal_mul_diagonal]
    congr 1
    funext k
    exact mul_comm _ _
  rw [← hd] at w2
  have u1' := mul_eq_one_comm.1 u1
  have hB : finMat n (fun i j => (B i j : K)) = finMat n (transferMatrix n W U s) *
      (finMat n (fun i j => (A i j : K)) * (finMat n (transferMatrix n W U s))ᵀ) := by
    rw [transfer_mat, w2, u2]
    generalize diagonal (fun k : Fin n => ((s.getD k 0 : Int) : K)) = S at *
    generalize diagonal (fun k : Fin n => d k) = D at *
    generalize finMat n U = u at *
    generalize finMat n W = w at *
    rw [Matrix.transpose_mul, Matrix.transpose_mul, Matrix.transpose_transpose, hST]
    calc w * (D * wᵀ) = w * (D * (1 * wᵀ)) := by rw [Matrix.one_mul]
      _ = w * ((D * S) * (S * wᵀ)) := by rw [← hsq]; simp only [Matrix.mul_assoc]
      _ = w * ((S * D) * (S * wᵀ)) := by rw [hSD]
      _ = w * (S * (1 * (D * (1 * (S * wᵀ))))) := by simp only [Matrix.mul_assoc, Matrix.one_mul]
      _ = w * (S * ((uᵀ * u) * (D * ((uᵀ * u) * (S * wᵀ))))) := by rw [u1']
      _ = _ := by simp only [Matrix.mul_assoc]
  refine ⟨?_, ?_⟩
  · rw [transfer_mat]
    generalize diagonal (fun k : Fin n => ((s.getD k 0 : Int) : K)) = S at *
    generalize finMat n U = u at *
    generalize finMat n W = w at *
    rw [Matrix.transpose_mul, Matrix.transpose_mul, Matrix.transpose_transpose, hST]
    calc w * (S * uᵀ) * (u * S * wᵀ) = w * (S * ((uᵀ * u) * (S * wᵀ))) := by simp only [Matrix.mul_assoc]
      _ = w * ((S * S) * wᵀ) := by rw [u1', Matrix.one_mul, Matrix.mul_assoc]
      _ = 1 := by rw [hsq, Matrix.one_mul, w1]
  · intro i j
    have := congrFun (congrFun hB i) j
    rw [Matrix.mul_apply] at this
    refine this.trans (Finset.sum_congr rfl (fun k _ => ?_))
    rw [Matrix.mul_apply, Finset.mul_sum]
    exact Finset.sum_congr rfl (fun l _ => rfl)

/-- An accepted transfer matrix rounds to the matrix of a relabelling of the sites that maps
one bond matrix to the other. -/
theorem accepted_relabels {n : Nat} {A B : Nat → Nat → Int} {U W : Nat → Nat → K} {d d' : Nat → K} {π : Nat → Nat}
    {rnd : K → K} {ε : K} (hr : Rounds rnd ε) (hε : 3 * (n : K) ^ 2 * ε < 1)
    (hU : EighOf n A U d) (hW : EighOf n B W d') (hlt : ∀ i < n, π i < n) (hinj : ∀ i < n, ∀ j < n, π i = π j → i = j)
    (hAB : ∀ i < n, ∀ j < n, A i j = B (π i) (π j)) (hA : ∀ i < n, ∀ j < n, A i j = 0 ∨ A i j = 1)
    {s : List Int} (hs : s ∈ signVectors n) (ha : acceptedTransfer rnd n (transferMatrix n W U s) = true) :
    ∃ σ : Nat → Nat, (∀ i < n, σ i < n) ∧ (∀ i < n, ∀ j < n, σ i = σ j → i = j) ∧
      (∀ i < n, ∀ j < n, rnd (transferMatrix n W U s i j) = 1 ↔ i = σ j) ∧
      ∀ i < n, ∀ j < n, B (σ i) (σ j) = A i j := by
  have h0 : 0 ≤ ε := (abs_nonneg _).trans (hr.ofZero 0 hr.zero)
  obtain ⟨t1, t2⟩ := transfer_conj hU hW hlt hinj hAB hs
  obtain ⟨_, ha2⟩ := acceptedTransfer_iff.1 ha
  have z : ∀ i j : Fin n, |finMat n (transferMatrix n W U s) i j| ≤ ε ∨ |finMat n (transferMatrix n W U s) i j - 1| ≤ ε := by
    intro i j
    rcases ha2 i i.2 j j.2 with h | h
    · exact Or.inl (hr.ofZero _ h)
    · exact Or.inr (hr.ofOne _ h)
  obtain ⟨σ, p1, p2⟩ := near_perm h0 hε _ t1 z
  have hσ : ∀ i (h : i < n), (fun k => if h : k < n then (σ ⟨k, h⟩ : Nat) else 0) i = (σ ⟨i, h⟩ : Nat) := fun i h => dif_pos h
  refine ⟨fun k => if h : k < n then (σ ⟨k, h⟩ : Nat) else 0, ?_, ?_, ?_, ?_⟩
  · intro i hi
    rw [hσ i hi]
    exact (σ ⟨i, hi⟩).2
  · intro i hi j hj h
    rw [hσ i hi, hσ j hj] at h
    exact Fin.ext_iff.1 (p1 (Fin.ext h))
  · intro i hi j hj
    rw [hσ j hj]
    have hp := p2 ⟨i, hi⟩ ⟨j, hj⟩
    rw [Fin.ext_iff] at hp
    rw [← hp]
    constructor
    · intro h
      exact hr.ofOne _ h
    · intro h
      rcases ha2 i hi j hj with k | k
      · have hs := eps_small (by omega : 1 ≤ n) h0 hε
        have u := abs_le.1 (hr.ofZero _ k)
        have v := abs_le.1 h
        have v' : -ε ≤ transferMatrix n W U s i j - 1 := v.1
        linarith
      · exact k
  · intro i hi j hj
    rw [hσ i hi, hσ j hj]
    exact conj_perm h0 hε _ (fun i j => A i j) (fun i j => B i j) (fun i j => hA i i.2 j j.2) t2 z σ p1 p2 ⟨i, hi⟩ ⟨j, hj⟩

end Bridge

/-! ### Collinearity only depends on the graph -/

theorem gridPos_surj {W H : Nat} {x y : Int} (hx : 0 ≤ x) (hx' : x < W) (hy : 0 ≤ y) (hy' : y < H) :
    ∃ s < W * H, gridPos W s = (x, y) := by
  obtain ⟨a, rfl⟩ := Int.eq_ofNat_of_zero_le hx
  obtain ⟨b, rfl⟩ := Int.eq_ofNat_of_zero_le hy
  have ha : a < W := by exact_mod_cast hx'
  have hb : b < H := by exact_mod_cast hy'
  refine ⟨W * b + a, ?_, ?_⟩
  · calc W * b + a < W * b + W := by omega
      _ = W * (b + 1) := by ring
      _ ≤ W * H := Nat.mul_le_mul_left _ hb
  · obtain ⟨q1, q2⟩ := (eq_iff_divmod (i := W * b + a) ha).1 rfl
    unfold gridPos
    rw [q1, q2]

/-- On a full grid the ends of a path of two bonds are collinear with its middle when the
middle is their only common neighbour. -/
theorem aligned_iff_unique {W H a m b : Nat} (hW : 1 ≤ W) (ha : a < W * H) (hm : m < W * H) (hb : b < W * H) (hab : a ≠ b)
    (h1 : Near (gridPos W a) (gridPos W m)) (h2 : Near (gridPos W m) (gridPos W b)) :
    Aligned (gridPos W a) (gridPos W m) (gridPos W b) ↔
      ∀ k < W * H, Near (gridPos W a) (gridPos W k) → Near (gridPos W k) (gridPos W b) → k = m := by
  have ra := gridPos_range hW ha
  have rm := gridPos_range hW hm
  have rb := gridPos_range hW hb
  have hne : gridPos W a ≠ gridPos W b := fun h => hab (gridPos_inj h)
  have hne' : (gridPos W a).1 ≠ (gridPos W b).1 ∨ (gridPos W a).2 ≠ (gridPos W b).2 := by
    by_contra hc
    push Not at hc
    exact hne (Prod.ext hc.1 hc.2)
  constructor
  · intro h k hk k1 k2
    apply gridPos_inj (W := W)
    unfold Aligned at h
    unfold Near at h1 h2 k1 k2
    apply Prod.ext <;> omega
  · intro h
    by_contra hc
    -- the other corner of the tile
    have hx : 0 ≤ (gridPos W a).1 + (gridPos W b).1 - (gridPos W m).1 := by
      unfold Aligned at hc; unfold Near at h1 h2; omega
    have hx' : (gridPos W a).1 + (gridPos W b).1 - (gridPos W m).1 < W := by
      unfold Aligned at hc; unfold Near at h1 h2; omega
    have hy : 0 ≤ (gridPos W a).2 + (gridPos W b).2 - (gridPos W m).2 := by
      unfold Aligned at hc; unfold Near at h1 h2; omega
    have hy' : (gridPos W a).2 + (gridPos W b).2 - (gridPos W m).2 < H := by
      unfold Aligned at hc; unfold Near at h1 h2; omega
    obtain ⟨k, hk, ek⟩ := gridPos_surj hx hx' hy hy'
    have := h k hk (by rw [ek]; unfold Near at *; dsimp only; omega) (by rw [ek]; unfold Near at *; dsimp only; omega)
    rw [← this, ek] at h1 hc
    unfold Aligned at hc
    unfold Near at *
    rw [this] at ek
    rw [Prod.ext_iff] at ek
    dsimp only at *
    omega

/-- Collinearity is preserved by relabellings of the grid that preserve the bonds. -/
theorem aligned_relabel {W H : Nat} (hW : 1 ≤ W) {σ : Nat → Nat} (hlt : ∀ i < W * H, σ i < W * H)
    (hinj : ∀ i < W * H, ∀ j < W * H, σ i = σ j → i = j)
    (hnear : ∀ i < W * H, ∀ j < W * H, (Near (gridPos W (σ i)) (gridPos W (σ j)) ↔ Near (gridPos W i) (gridPos W j)))
    {a m b : Nat} (ha : a < W * H) (hm : m < W * H) (hb : b < W * H) (hab : a ≠ b)
    (h1 : Near (gridPos W a) (gridPos W m)) (h2 : Near (gridPos W m) (gridPos W b)) :
    Aligned (gridPos W (σ a)) (gridPos W (σ m)) (gridPos W (σ b)) ↔ Aligned (gridPos W a) (gridPos W m) (gridPos W b) := by
  have hsurj : ∀ k < W * H, ∃ i < W * H, σ i = k := by
    intro k hk
    let f : Fin (W * H) → Fin (W * H) := fun i => ⟨σ i, hlt i i.2⟩
    have hf : Function.Injective f := fun i j h => Fin.ext (hinj i i.2 j j.2 (Fin.ext_iff.1 h))
    obtain ⟨i, hi⟩ := Finite.injective_iff_surjective.1 hf ⟨k, hk⟩
    exact ⟨i, i.2, Fin.ext_iff.1 hi⟩
  rw [aligned_iff_unique hW (hlt a ha) (hlt m hm) (hlt b hb) (fun h => hab (hinj a ha b hb h))
    ((hnear a ha m hm).2 h1) ((hnear m hm b hb).2 h2), aligned_iff_unique hW ha hm hb hab h1 h2]
  constructor
  · intro h k hk k1 k2
    exact hinj k hk m hm (h _ (hlt k hk) ((hnear a ha k hk).2 k1) ((hnear k hk b hb).2 k2))
  · intro h k hk k1 k2
    obtain ⟨i, hi, rfl⟩ := hsurj k hk
    rw [h i hi ((hnear a ha i hi).1 k1) ((hnear i hi b hb).1 k2)]

end TJ
