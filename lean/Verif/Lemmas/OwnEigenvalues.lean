import Verif.Lemmas.Weyl
import Mathlib.Data.Fin.Tuple.Sort
import Mathlib.Algebra.Order.BigOperators.Ring.Finset

/-!
Several approximate eigenvectors at once: an orthonormal family with small residues belongs to as many eigenvalues as it has vectors.
-/

namespace TJ

open Finset Matrix

section
variable {K : Type} [Field K] [LinearOrder K] [IsStrictOrderedRing K] {d k : Nat}

omit [IsStrictOrderedRing K] in
theorem sort_eigen {A : Matrix (Fin d) (Fin d) K} {e : Fin d → K} {w : Fin d → Fin d → K} (hw : ∀ j, A *ᵥ w j = e j • w j)
    (hwo : ∀ i j, w i ⬝ᵥ w j = if i = j then 1 else 0) : ∃ (e' : Fin d → K) (w' : Fin d → Fin d → K),
      (∀ j, A *ᵥ w' j = e' j • w' j) ∧ (∀ i j, w' i ⬝ᵥ w' j = if i = j then 1 else 0) ∧ Monotone e' := by
  refine ⟨e ∘ Tuple.sort e, w ∘ Tuple.sort e, fun j => hw _, fun i j => ?_, Tuple.monotone_sort e⟩
  have := hwo (Tuple.sort e i) (Tuple.sort e j)
  simp only [EmbeddingLike.apply_eq_iff_eq] at this
  exact this

/-- What remains of a vector after its part along an orthonormal family. -/
def rest (V : Fin k → Fin d → K) (x : Fin d → K) : Fin d → K := x - ∑ i, (V i ⬝ᵥ x) • V i

omit [LinearOrder K] [IsStrictOrderedRing K] in
theorem dot_sum (V : Fin k → Fin d → K) (a : Fin k → K) (z : Fin d → K) : z ⬝ᵥ (∑ i, a i • V i) = ∑ i, a i * (z ⬝ᵥ V i) := by
  rw [dotProduct_sum]
  exact sum_congr rfl fun i _ => by rw [dotProduct_smul, smul_eq_mul]

omit [LinearOrder K] [IsStrictOrderedRing K] in
theorem rest_orth {V : Fin k → Fin d → K} (hV : ∀ i j, V i ⬝ᵥ V j = if i = j then 1 else 0) (x : Fin d → K) (i : Fin k) : V i ⬝ᵥ rest V x = 0 := by
  unfold rest
  rw [dotProduct_sub, dot_sum]
  simp [hV]

omit [LinearOrder K] [IsStrictOrderedRing K] in
theorem rest_dot {V : Fin k → Fin d → K} (x z : Fin d → K) (hz : ∀ i, z ⬝ᵥ V i = 0) : z ⬝ᵥ rest V x = z ⬝ᵥ x := by
  unfold rest
  rw [dotProduct_sub, dot_sum]
  simp [hz]

omit [LinearOrder K] [IsStrictOrderedRing K] in
theorem rest_self {V : Fin k → Fin d → K} (hV : ∀ i j, V i ⬝ᵥ V j = if i = j then 1 else 0) (x : Fin d → K) :
    rest V x ⬝ᵥ rest V x + ∑ i, (V i ⬝ᵥ x) * (V i ⬝ᵥ x) = x ⬝ᵥ x := by
  rw [rest_dot x (rest V x) (fun i => by rw [dotProduct_comm]; exact rest_orth hV x i), dotProduct_comm]
  unfold rest
  rw [dotProduct_sub, dot_sum]
  simp only [dotProduct_comm x (V _)]
  ring

theorem bessel {V : Fin k → Fin d → K} (hV : ∀ i j, V i ⬝ᵥ V j = if i = j then 1 else 0) (x : Fin d → K) :
    ∑ i, (V i ⬝ᵥ x) * (V i ⬝ᵥ x) ≤ x ⬝ᵥ x := by
  have := rest_self hV x
  have h0 := dot_self_nonneg (rest V x)
  linarith

theorem cauchy_dot (x y : Fin d → K) : (x ⬝ᵥ y) * (x ⬝ᵥ y) ≤ (x ⬝ᵥ x) * (y ⬝ᵥ y) := by
  have := sum_mul_sq_le_sq_mul_sq univ x y
  simp only [dotProduct, ← pow_two]
  exact this

/-- The matrix that has the family among its eigenvectors. -/
def adjusted (A : Matrix (Fin d) (Fin d) K) (V R : Fin k → Fin d → K) : Matrix (Fin d) (Fin d) K :=
  fun a b => A a b + ∑ i, (R i a * V i b + V i a * R i b)

omit [LinearOrder K] [IsStrictOrderedRing K] in
theorem adjusted_symm {A : Matrix (Fin d) (Fin d) K} (hA : A.IsSymm) (V R : Fin k → Fin d → K) : (adjusted A V R).IsSymm := by
  ext a b
  simp only [transpose_apply, adjusted]
  rw [hA.apply a b]
  congr 1
  exact sum_congr rfl fun i _ => by ring

omit [LinearOrder K] [IsStrictOrderedRing K] in
theorem adjusted_mulVec (A : Matrix (Fin d) (Fin d) K) (V R : Fin k → Fin d → K) (x : Fin d → K) :
    adjusted A V R *ᵥ x = A *ᵥ x + ∑ i, ((V i ⬝ᵥ x) • R i + (R i ⬝ᵥ x) • V i) := by
  funext a
  simp only [mulVec, dotProduct, adjusted, Pi.add_apply, Finset.sum_apply, Pi.smul_apply, smul_eq_mul, add_mul, sum_add_distrib, sum_mul]
  congr 1
  congr 1 <;> (rw [sum_comm]; exact sum_congr rfl fun i _ => sum_congr rfl fun b _ => by ring)

omit [LinearOrder K] [IsStrictOrderedRing K] in
theorem adjusted_form (A : Matrix (Fin d) (Fin d) K) (V R : Fin k → Fin d → K) (x : Fin d → K) :
    x ⬝ᵥ (adjusted A V R *ᵥ x) = x ⬝ᵥ (A *ᵥ x) + 2 * ∑ i, (V i ⬝ᵥ x) * (R i ⬝ᵥ x) := by
  rw [adjusted_mulVec, dotProduct_add, dotProduct_sum, mul_sum]
  congr 1
  refine sum_congr rfl fun i _ => ?_
  rw [dotProduct_add, dotProduct_smul, dotProduct_smul, smul_eq_mul, smul_eq_mul, dotProduct_comm x (R i), dotProduct_comm x (V i)]
  ring

/-- Eigenvectors of the same value are at most as many as the eigenvalues equal to it. -/
theorem fibre_card {A : Matrix (Fin d) (Fin d) K} (hA : A.IsSymm) {e : Fin d → K} {w : Fin d → Fin d → K} (hw : ∀ j, A *ᵥ w j = e j • w j)
    (hwo : ∀ i j, w i ⬝ᵥ w j = if i = j then 1 else 0) {V : Fin k → Fin d → K} (hV : ∀ i j, V i ⬝ᵥ V j = if i = j then 1 else 0)
    {th : Fin k → K} (hth : ∀ i, A *ᵥ V i = th i • V i) (t : K) :
    Fintype.card {i // th i = t} ≤ Fintype.card {j // e j = t} := by
  have hz : ∀ i j, th i = t → e j ≠ t → w j ⬝ᵥ V i = 0 := by
    intro i j hi hj
    have h1 : w j ⬝ᵥ (A *ᵥ V i) = t * (w j ⬝ᵥ V i) := by rw [hth, hi, dotProduct_smul, smul_eq_mul]
    have h2 : w j ⬝ᵥ (A *ᵥ V i) = e j * (w j ⬝ᵥ V i) := by rw [symm_dot hA, hw, smul_dotProduct, smul_eq_mul]
    have : (e j - t) * (w j ⬝ᵥ V i) = 0 := by rw [sub_mul, ← h1, ← h2, sub_self]
    exact (mul_eq_zero.1 this).resolve_left (sub_ne_zero.2 hj)
  rw [Fintype.card_subtype, Fintype.card_subtype]
  have h1 : ((univ.filter fun i => th i = t).card : K) = ∑ i ∈ univ.filter (fun i => th i = t), ∑ j ∈ univ.filter (fun j => e j = t), (w j ⬝ᵥ V i) * (w j ⬝ᵥ V i) := by
    rw [card_eq_sum_ones, Nat.cast_sum]
    refine sum_congr rfl fun i hi => ?_
    have hi := (mem_filter.1 hi).2
    have := complete hwo (V i) (V i)
    rw [hV, if_pos rfl] at this
    rw [Nat.cast_one, this]
    symm
    refine sum_subset (filter_subset _ _) fun j _ hj => ?_
    rw [hz i j hi (by simpa using hj), zero_mul]
  have h2 : ∑ i ∈ univ.filter (fun i => th i = t), ∑ j ∈ univ.filter (fun j => e j = t), (w j ⬝ᵥ V i) * (w j ⬝ᵥ V i) ≤
      ((univ.filter fun j => e j = t).card : K) := by
    rw [sum_comm, card_eq_sum_ones, Nat.cast_sum]
    refine sum_le_sum fun j _ => ?_
    have hb := bessel hV (w j)
    rw [hwo, if_pos rfl] at hb
    rw [Nat.cast_one]
    refine le_trans (sum_le_sum_of_subset_of_nonneg (filter_subset _ _) fun i _ _ => mul_self_nonneg _) ?_
    simpa only [dotProduct_comm (w j)] using hb
  exact_mod_cast h1.trans_le h2

/-- Every eigenvector of a family gets its own eigenvalue. -/
theorem own_eigenvalue {A : Matrix (Fin d) (Fin d) K} (hA : A.IsSymm) {e : Fin d → K} {w : Fin d → Fin d → K} (hw : ∀ j, A *ᵥ w j = e j • w j)
    (hwo : ∀ i j, w i ⬝ᵥ w j = if i = j then 1 else 0) {V : Fin k → Fin d → K} (hV : ∀ i j, V i ⬝ᵥ V j = if i = j then 1 else 0)
    {th : Fin k → K} (hth : ∀ i, A *ᵥ V i = th i • V i) : ∃ f : Fin k → Fin d, Function.Injective f ∧ ∀ i, e (f i) = th i := by
  have g : ∀ t, {i // th i = t} ↪ {j // e j = t} := fun t => (Function.Embedding.nonempty_of_card_le (fibre_card hA hw hwo hV hth t)).some
  refine ⟨fun i => (g (th i) ⟨i, rfl⟩).1, ?_, fun i => (g (th i) ⟨i, rfl⟩).2⟩
  intro i j hij
  have h1 : th i = th j := (g (th i) ⟨i, rfl⟩).2.symm.trans ((congrArg e hij).trans (g (th j) ⟨j, rfl⟩).2)
  have key : ∀ t (hi : th i = t) (hj : th j = t), (g t ⟨i, hi⟩).1 = (g t ⟨j, hj⟩).1 → i = j := by
    intro t hi hj h
    exact congrArg Subtype.val ((g t).injective (Subtype.ext h))
  refine key (th i) rfl h1.symm (hij.trans ?_)
  have : ∀ t t' (h : t = t') (hj : th j = t) (hj' : th j = t'), (g t ⟨j, hj⟩).1 = (g t' ⟨j, hj'⟩).1 := by
    intro t t' h hj hj'
    subst h
    rfl
  exact this _ _ h1.symm _ _

/-- Orthonormal Ritz vectors with small residues: each Ritz value has its own eigenvalue near it. -/
theorem cluster {A : Matrix (Fin d) (Fin d) K} (hA : A.IsSymm) (heig : ∀ M : Matrix (Fin d) (Fin d) K, M.IsSymm →
      ∃ (e : Fin d → K) (w : Fin d → Fin d → K), (∀ j, M *ᵥ w j = e j • w j) ∧ ∀ i j, w i ⬝ᵥ w j = if i = j then 1 else 0)
    {mu : Fin d → K} {w : Fin d → Fin d → K} (hw : ∀ j, A *ᵥ w j = mu j • w j) (hwo : ∀ i j, w i ⬝ᵥ w j = if i = j then 1 else 0) (hmu : Monotone mu)
    {V : Fin k → Fin d → K} (hV : ∀ i j, V i ⬝ᵥ V j = if i = j then 1 else 0) {th : Fin k → K}
    (hVA : ∀ i j, V i ⬝ᵥ (A *ᵥ V j) = if i = j then th i else 0) {t ε : K} (hε : 0 ≤ ε)
    (hR : ∀ i, (th i • V i - A *ᵥ V i) ⬝ᵥ (th i • V i - A *ᵥ V i) ≤ t) (ht : k * t ≤ ε * ε) :
    ∃ f : Fin k → Fin d, Function.Injective f ∧ ∀ i, |mu (f i) - th i| ≤ ε := by
  set R : Fin k → Fin d → K := fun i => th i • V i - A *ᵥ V i with hRdef
  have hRV : ∀ i j, R i ⬝ᵥ V j = 0 := by
    intro i j
    rw [dotProduct_comm, hRdef]
    simp only [dotProduct_sub, dotProduct_smul, smul_eq_mul, hV, hVA]
    by_cases hij : j = i
    · subst hij; simp
    · simp [hij]
  have hform : ∀ x : Fin d → K, |2 * ∑ i, (V i ⬝ᵥ x) * (R i ⬝ᵥ x)| ≤ ε * (x ⬝ᵥ x) := by
    intro x
    have hx := rest_self hV x
    set y := rest V x with hy
    set P := ∑ i, (V i ⬝ᵥ x) * (V i ⬝ᵥ x) with hP
    have hP0 : 0 ≤ P := sum_nonneg fun i _ => mul_self_nonneg _
    have hy0 := dot_self_nonneg y
    have hq : ∑ i, (R i ⬝ᵥ x) * (R i ⬝ᵥ x) ≤ ε * ε * (y ⬝ᵥ y) := by
      refine le_trans (b := ∑ _i : Fin k, t * (y ⬝ᵥ y)) (sum_le_sum fun i _ => ?_) ?_
      · rw [← rest_dot (V := V) x (R i) (hRV i)]
        exact (cauchy_dot (R i) y).trans (mul_le_mul_of_nonneg_right (hR i) hy0)
      · rw [sum_const, card_univ, Fintype.card_fin, nsmul_eq_mul, ← mul_assoc]
        exact mul_le_mul_of_nonneg_right ht hy0
    have hc := sum_mul_sq_le_sq_mul_sq univ (fun i => V i ⬝ᵥ x) (fun i => R i ⬝ᵥ x)
    set s := ∑ i, (V i ⬝ᵥ x) * (R i ⬝ᵥ x) with hs
    have hc' : s * s ≤ P * (ε * ε * (y ⬝ᵥ y)) := by
      have : s * s ≤ P * ∑ i, (R i ⬝ᵥ x) * (R i ⬝ᵥ x) := by
        simpa only [pow_two] using hc
      exact this.trans (mul_le_mul_of_nonneg_left hq hP0)
    refine abs_le_of_sq_le_sq ?_ (mul_nonneg hε (dot_self_nonneg x))
    rw [← hx]
    nlinarith [mul_nonneg (mul_nonneg hε hε) (sq_nonneg (y ⬝ᵥ y - P))]
  have hs' := adjusted_symm hA V R
  obtain ⟨e0, w0, a1, a2⟩ := heig _ hs'
  obtain ⟨e, w', b1, b2, b3⟩ := sort_eigen a1 a2
  obtain ⟨f, f1, f2⟩ := own_eigenvalue hs' b1 b2 hV (th := th) (fun j => by
    rw [adjusted_mulVec]
    have : ∑ i, ((V i ⬝ᵥ V j) • R i + (R i ⬝ᵥ V j) • V i) = R j := by
      simp [hV, hRV]
    rw [this, hRdef]
    simp)
  refine ⟨f, f1, fun i => ?_⟩
  rw [← f2 i, abs_le]
  have h1 := eigen_sorted hA hw hwo b1 b2 hmu b3 ε (fun z => by
    rw [adjusted_form]
    have := (abs_le.1 (hform z)).1
    linarith) (f i)
  have h2 := eigen_sorted hs' b1 b2 hw hwo b3 hmu ε (fun z => by
    rw [adjusted_form]
    have := (abs_le.1 (hform z)).2
    linarith) (f i)
  constructor <;> linarith

end

end TJ
