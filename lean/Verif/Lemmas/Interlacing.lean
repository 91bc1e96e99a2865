/-
The inequalities of Poincaré and Cauchy for the values of a compression of a symmetric matrix.
-/
import Verif.Lemmas.DavidsonLoop
import Mathlib.LinearAlgebra.FiniteDimensional.Lemmas
import Mathlib.LinearAlgebra.Dimension.Constructions

namespace TJ

open Matrix Finset

section
variable {K : Type} [Field K] [LinearOrder K] [IsStrictOrderedRing K]

omit [LinearOrder K] [IsStrictOrderedRing K] in
/-- Fewer equations than unknowns. -/
theorem exists_combination {n k : Nat} (w : Fin n → Fin n → K) (S : Finset (Fin n)) (hS : S.card ≤ k) (y : Fin (k + 1) → Fin n → K) :
    ∃ c : Fin (k + 1) → K, c ≠ 0 ∧ ∀ j ∈ S, w j ⬝ᵥ (∑ i, c i • y i) = 0 := by
  let f : (Fin (k + 1) → K) →ₗ[K] (S → K) :=
    { toFun := fun c j => w j ⬝ᵥ (∑ i, c i • y i)
      map_add' := by
        intro a b
        funext j
        simp only [Pi.add_apply, add_smul, sum_add_distrib, dotProduct_add]
      map_smul' := by
        intro a b
        funext j
        simp only [Pi.smul_apply, smul_eq_mul, mul_smul, ← smul_sum, dotProduct_smul, RingHom.id_apply] }
  have hlt : Module.finrank K (S → K) < Module.finrank K (Fin (k + 1) → K) := by
    simp only [Module.finrank_fintype_fun_eq_card, Fintype.card_coe, Fintype.card_fin]
    omega
  have := LinearMap.ker_ne_bot_of_finrank_lt (f := f) hlt
  obtain ⟨c, hc, hc0⟩ := (Submodule.ne_bot_iff _).1 this
  refine ⟨c, hc0, fun j hj => ?_⟩
  exact congrFun (LinearMap.mem_ker.1 hc) ⟨j, hj⟩

omit [LinearOrder K] [IsStrictOrderedRing K] in
theorem dot_family {n k : Nat} (y z : Fin k → Fin n → K) (t : Fin k → K) (h : ∀ i j, y i ⬝ᵥ z j = if i = j then t i else 0) (c : Fin k → K) :
    (∑ i, c i • y i) ⬝ᵥ (∑ i, c i • z i) = ∑ i, t i * (c i * c i) := by
  rw [sum_dotProduct]
  refine sum_congr rfl fun i _ => ?_
  rw [dotProduct_sum, sum_eq_single i]
  · rw [smul_dotProduct, dotProduct_smul, h, if_pos rfl, smul_eq_mul, smul_eq_mul]
    ring
  · intro j _ hj
    rw [smul_dotProduct, dotProduct_smul, h, if_neg (Ne.symm hj), smul_zero, smul_zero]
  · intro hi
    exact absurd (mem_univ i) hi

/-- Poincaré: when all eigenvalues but `k` are at least `lo`, a compression to `k + 1` dimensions has a value that is at least `lo`. -/
theorem poincare {n k : Nat} {M : Matrix (Fin n) (Fin n) K} (hM : M.IsSymm) {mu : Fin n → K} {w : Fin n → Fin n → K}
    (he : ∀ k, M *ᵥ w k = mu k • w k) (hw : ∀ i j, w i ⬝ᵥ w j = if i = j then 1 else 0)
    (S : Finset (Fin n)) (hS : S.card ≤ k) (lo hi : K) (hlo : ∀ j, j ∉ S → lo ≤ mu j)
    (y : Fin (k + 1) → Fin n → K) (t : Fin (k + 1) → K) (hy : ∀ i j, y i ⬝ᵥ y j = if i = j then 1 else 0)
    (ht : ∀ i j, y i ⬝ᵥ (M *ᵥ y j) = if i = j then t i else 0) (hhi : ∀ i, t i ≤ hi) : lo ≤ hi := by
  obtain ⟨c, hc, h0⟩ := exists_combination w S hS y
  set z := ∑ i, c i • y i with hz
  have n1 : z ⬝ᵥ z = ∑ i, c i * c i := by
    rw [hz, dot_family y y (fun _ => 1) hy]
    simp
  have n2 : z ⬝ᵥ (M *ᵥ z) = ∑ i, t i * (c i * c i) := by
    have : M *ᵥ z = ∑ i, c i • (M *ᵥ y i) := by
      rw [hz, mulVec_sum]
      simp only [mulVec_smul]
    rw [this, hz]
    exact dot_family y (fun i => M *ᵥ y i) t ht c
  have hpos : 0 < z ⬝ᵥ z := by
    rw [n1]
    obtain ⟨i, hi⟩ := Function.ne_iff.1 hc
    exact sum_pos' (fun i _ => mul_self_nonneg _) ⟨i, mem_univ i, mul_self_pos.2 hi⟩
  have up : z ⬝ᵥ (M *ᵥ z) ≤ hi * (z ⬝ᵥ z) := by
    rw [n1, n2, mul_sum]
    exact sum_le_sum fun i _ => mul_le_mul_of_nonneg_right (hhi i) (mul_self_nonneg _)
  have down : lo * (z ⬝ᵥ z) ≤ z ⬝ᵥ (M *ᵥ z) := by
    rw [complete hw z z, complete hw z (M *ᵥ z), mul_sum]
    refine sum_le_sum fun j _ => ?_
    rw [symm_dot hM (w j) z, he j, smul_dotProduct, smul_eq_mul]
    by_cases hj : j ∈ S
    · rw [h0 j hj]; simp
    · have h1 : 0 ≤ (w j ⬝ᵥ z) * (w j ⬝ᵥ z) := mul_self_nonneg _
      have := mul_le_mul_of_nonneg_right (hlo j hj) h1
      linarith
  exact le_of_mul_le_mul_right (down.trans up) hpos

variable {d : Nat}

omit [IsStrictOrderedRing K] in
/-- The compression to the Ritz vectors is diagonal. -/
theorem ritz_diagonal {L : LinAlg K} (he : L.ExactEigh) {A : Matrix (Fin d) (Fin d) K} (hA : A.IsSymm) {V : List (Fin d → K)}
    {nb : Nat} {vals : List K} {us rs : List (Fin d → K)} (h : ritz L A V nb = .ok (vals, us, rs)) :
    ∀ i j (hi : i < us.length) (hj : j < us.length) (hi' : i < vals.length), us[i] ⬝ᵥ (A *ᵥ us[j]) = if i = j then vals[i] else 0 := by
  have hnb := (ritz_ok h).1
  obtain ⟨idx, h1, h2, h3, h4⟩ := ritz_spec L A V nb hnb
  obtain ⟨e1, e2⟩ := he V.length (rayleigh A V) (rayleigh_symm hA V)
  rw [h4] at h
  have h := Except.ok.inj h
  simp only [Prod.mk.injEq] at h
  obtain ⟨rfl, rfl, rfl⟩ := h
  intro i j hi hj _
  simp only [List.getElem_map]
  rw [combine_rayleigh, e1, dotProduct_smul, e2, smul_eq_mul]
  have : (idx[i]'(by simpa using hi) = idx[j]'(by simpa using hj)) ↔ i = j := List.Nodup.getElem_inj_iff h2
  simp only [this]
  split_ifs with hij
  · subst hij; rw [mul_one]
  · rw [mul_zero]

/-- Cauchy: a compression to `k + 1` dimensions inside the search space has a value that is at least the Ritz value number `k`. -/
theorem ritz_kth {L : LinAlg K} (he : L.ExactEigh) {A : Matrix (Fin d) (Fin d) K} (hA : A.IsSymm) {V : List (Fin d → K)}
    (hV : Ortho V) {nb : Nat} {vals : List K} {us rs : List (Fin d → K)} (h : ritz L A V nb = .ok (vals, us, rs))
    (k : Nat) (hk : k < vals.length) (y : Fin (k + 1) → Fin d → K) (t : Fin (k + 1) → K) (hin : ∀ i, InSpan V (y i))
    (hy : ∀ i j, y i ⬝ᵥ y j = if i = j then 1 else 0) (ht : ∀ i j, y i ⬝ᵥ (A *ᵥ y j) = if i = j then t i else 0)
    (hi : K) (hhi : ∀ i, t i ≤ hi) : vals[k] ≤ hi := by
  have hnb := (ritz_ok h).1
  obtain ⟨idx, h1, h2, h3, h4⟩ := ritz_spec L A V nb hnb
  obtain ⟨e1, e2⟩ := he V.length (rayleigh A V) (rayleigh_symm hA V)
  rw [h4] at h
  have h := Except.ok.inj h
  simp only [Prod.mk.injEq] at h
  obtain ⟨rfl, rfl, rfl⟩ := h
  choose c hc using hin
  have hc : ∀ i, y i = combine V (c i) := hc
  have hk' : k < idx.length := by simpa using hk
  refine poincare (rayleigh_symm hA V) e1 e2 (idx.take k).toFinset ?_ _ hi ?_ c t ?_ ?_ hhi
  · exact (List.toFinset_card_le _).trans (by simp)
  · intro j hj
    rw [List.mem_toFinset] at hj
    simp only [List.getElem_map]
    by_cases hji : j ∈ idx
    · obtain ⟨m, hm, rfl⟩ := List.getElem_of_mem hji
      have hkm : k ≤ m := by
        by_contra hlt
        refine hj (List.mem_iff_getElem.2 ⟨m, by simp; omega, by simp⟩)
      have hp := h3.2.2.2.1
      rw [List.pairwise_map] at hp
      rcases Nat.eq_or_lt_of_le hkm with rfl | hlt
      · exact le_refl _
      · have := List.pairwise_iff_getElem.1 hp k m hk' hm hlt
        simpa [List.getD_eq_getElem?_getD] using this
    · have := h3.2.2.2.2 (j : Nat) (by simp) (by
        intro hmem
        obtain ⟨a, ha, hab⟩ := List.mem_map.1 hmem
        exact hji (Fin.ext hab ▸ ha)) (idx[k] : Nat) (List.mem_map.2 ⟨_, List.getElem_mem hk', rfl⟩)
      simpa [List.getD_eq_getElem?_getD] using this
  · intro i j
    rw [← combine_dot hV, ← hc, ← hc, hy]
  · intro i j
    rw [← combine_rayleigh, ← hc, ← hc, ht]

/-- No Ritz value increases from a search space to the next. -/
theorem NextSpace.kth_le {L : LinAlg K} (he : L.ExactEigh) (hq : L.ExactQr) {A : Matrix (Fin d) (Fin d) K} (hA : A.IsSymm)
    {nb : Nat} {tol : K} {dimMax : Nat} {W W' : List (Fin d → K)} (hW : Ortho W) (h : NextSpace L A nb tol dimMax W W')
    {vals vals' : List K} {us rs us' rs' : List (Fin d → K)} (hr : ritz L A W nb = .ok (vals, us, rs))
    (hr' : ritz L A W' nb = .ok (vals', us', rs')) (k : Nat) (h0 : k < vals.length) (h0' : k < vals'.length) : vals'[k] ≤ vals[k] := by
  have hW' := h.ortho hq
  obtain ⟨vals1, us1, rs1, corr, h1, _, _, rfl⟩ := h
  rw [hr] at h1
  have h1 := Except.ok.inj h1
  simp only [Prod.mk.injEq] at h1
  obtain ⟨rfl, rfl, rfl⟩ := h1
  obtain ⟨o1, _, o3⟩ := ritz_exact he hA hW hr
  have o2 := ritz_diagonal he hA hr
  obtain ⟨r1, r2, r3, _, _⟩ := ritz_ok hr
  have hus : ∀ i : Fin (k + 1), (i : Nat) < us.length := fun i => by have := i.2; omega
  refine ritz_kth he hA hW' hr' k h0' (fun i => us[(i : Nat)]'(hus i)) (fun i => vals[(i : Nat)]'(by have := i.2; omega)) ?_ ?_ ?_ _ ?_
  · intro m
    split_ifs with hc
    · exact (hq d _).2.2 _ (List.mem_append_left _ (List.getElem_mem (hus m)))
    · have hWin : InSpan W (us[(m : Nat)]'(hus m)) := by
        obtain ⟨idx, _, _, _, h4⟩ := ritz_spec L A W nb r1
        rw [h4] at hr
        have hr := Except.ok.inj hr
        simp only [Prod.mk.injEq] at hr
        obtain ⟨-, rfl, -⟩ := hr
        exact ⟨_, by simp only [List.getElem_map]; rfl⟩
      obtain ⟨y, hy⟩ := hWin
      rw [hy]
      have : ∀ i, InSpan (L.qr d (W ++ corr)) (W.get i) := fun i => (hq d _).2.2 _ (List.mem_append_left _ (List.get_mem _ _))
      choose z hz using this
      refine ⟨∑ i, y i • z i, ?_⟩
      rw [sum_congr rfl (fun i _ => by rw [hz i])]
      simp only [smul_sum, Finset.sum_apply, Pi.smul_apply, sum_smul, smul_smul, smul_eq_mul]
      rw [sum_comm]
  · intro i j
    have := o1 ⟨i, hus i⟩ ⟨j, hus j⟩
    simpa [Fin.ext_iff] using this
  · intro i j
    have := o2 i j (hus i) (hus j) (by have := i.2; omega)
    simpa [Fin.ext_iff] using this
  · intro i
    rcases Nat.eq_or_lt_of_le (Nat.lt_succ_iff.1 i.2) with hi | hi
    · simp only [hi]; exact le_refl _
    · exact List.pairwise_iff_getElem.1 o3 i k _ h0 hi

end

end TJ
