/-
Lemmas about the Rayleigh-Ritz step and about the loop of the Davidson algorithm.
-/
import Verif.Lemmas.Lowest
import Mathlib.LinearAlgebra.Matrix.NonsingularInverse
import Mathlib.Algebra.Order.Ring.Abs
import Mathlib.Algebra.BigOperators.Ring.Finset
import Mathlib.Algebra.Order.BigOperators.Ring.Finset
import Mathlib.Tactic.Ring
import Mathlib.Tactic.Linarith

namespace TJ

open Matrix Finset

section
variable {K : Type} [Field K] [LinearOrder K] {d : Nat}

/-! ### Linear algebra -/

theorem combine_dot_left (V : List (Fin d → K)) (y : Fin V.length → K) (x : Fin d → K) :
    combine V y ⬝ᵥ x = ∑ i, y i * (V.get i ⬝ᵥ x) := by
  unfold combine
  rw [sum_dotProduct]
  simp only [smul_dotProduct, smul_eq_mul]

theorem combine_dot_right (V : List (Fin d → K)) (y : Fin V.length → K) (x : Fin d → K) :
    x ⬝ᵥ combine V y = ∑ i, y i * (x ⬝ᵥ V.get i) := by
  unfold combine
  rw [dotProduct_sum]
  simp only [dotProduct_smul, smul_eq_mul]

theorem combine_dot {V : List (Fin d → K)} (hV : Ortho V) (y z : Fin V.length → K) :
    combine V y ⬝ᵥ combine V z = y ⬝ᵥ z := by
  rw [combine_dot_left]
  unfold dotProduct
  refine sum_congr rfl fun i _ => ?_
  have := combine_dot_right V z (V.get i)
  unfold dotProduct at this
  rw [this]
  congr 1
  rw [sum_eq_single i]
  · have := hV i i
    unfold dotProduct at this
    rw [this, if_pos rfl, mul_one]
  · intro j _ hj
    have := hV i j
    unfold dotProduct at this
    rw [this, if_neg (Ne.symm hj), mul_zero]
  · simp

theorem mulVec_combine (A : Matrix (Fin d) (Fin d) K) (V : List (Fin d → K)) (y : Fin V.length → K) :
    A *ᵥ combine V y = ∑ i, y i • (A *ᵥ V.get i) := by
  unfold combine
  rw [mulVec_sum]
  simp only [mulVec_smul]

theorem combine_rayleigh (A : Matrix (Fin d) (Fin d) K) (V : List (Fin d → K)) (y z : Fin V.length → K) :
    combine V y ⬝ᵥ (A *ᵥ combine V z) = y ⬝ᵥ (rayleigh A V *ᵥ z) := by
  rw [combine_dot_left, mulVec_combine]
  show _ = ∑ i, y i * ∑ j, rayleigh A V i j * z j
  refine sum_congr rfl fun i _ => ?_
  rw [dotProduct_sum]
  congr 1
  refine sum_congr rfl fun j _ => ?_
  rw [dotProduct_smul, smul_eq_mul, mul_comm]
  rfl

theorem symm_dot {A : Matrix (Fin d) (Fin d) K} (hA : A.IsSymm) (x y : Fin d → K) : x ⬝ᵥ (A *ᵥ y) = (A *ᵥ x) ⬝ᵥ y := by
  rw [dotProduct_mulVec, ← mulVec_transpose, hA.eq]

theorem rayleigh_symm {A : Matrix (Fin d) (Fin d) K} (hA : A.IsSymm) (V : List (Fin d → K)) : (rayleigh A V).IsSymm := by
  ext i j
  show V.get j ⬝ᵥ (A *ᵥ V.get i) = V.get i ⬝ᵥ (A *ᵥ V.get j)
  rw [symm_dot hA, dotProduct_comm]

/-- An orthonormal family of maximal length is complete. -/
theorem complete {n : Nat} {w : Fin n → Fin n → K} (hw : ∀ i j, w i ⬝ᵥ w j = if i = j then 1 else 0) (x y : Fin n → K) :
    x ⬝ᵥ y = ∑ k, (w k ⬝ᵥ x) * (w k ⬝ᵥ y) := by
  have h1 : (Matrix.of w) * (Matrix.of w)ᵀ = 1 := by
    ext i j
    rw [Matrix.mul_apply, one_apply]
    exact hw i j
  have h2 : (Matrix.of w)ᵀ * (Matrix.of w) = 1 := (mul_eq_one_comm).1 h1
  have h3 : y = (Matrix.of w)ᵀ *ᵥ ((Matrix.of w) *ᵥ y) := by rw [mulVec_mulVec, h2, one_mulVec]
  conv_lhs => rw [h3]
  rw [dotProduct_mulVec, vecMul_transpose]
  rfl

variable [IsStrictOrderedRing K]

theorem dot_self_nonneg (x : Fin d → K) : 0 ≤ x ⬝ᵥ x := sum_nonneg fun _ _ => mul_self_nonneg _

theorem norm_le_iff {L : LinAlg K} (hL : L.ExactSqrt) (x : Fin d → K) (t : K) : L.norm x ≤ t ↔ 0 ≤ t ∧ x ⬝ᵥ x ≤ t * t := by
  obtain ⟨h1, h2⟩ := hL _ (dot_self_nonneg x)
  unfold LinAlg.norm
  constructor
  · intro h
    refine ⟨h1.trans h, ?_⟩
    rw [← h2]
    exact mul_le_mul h h h1 (h1.trans h)
  · rintro ⟨h3, h4⟩
    rw [← h2] at h4
    exact abs_le_abs_of_nonneg_le h1 h3 h4
where
  abs_le_abs_of_nonneg_le {a b : K} (ha : 0 ≤ a) (hb : 0 ≤ b) (h : a * a ≤ b * b) : a ≤ b := by
    by_contra hc
    push Not at hc
    have : b * b < a * a := mul_lt_mul'' hc hc hb hb
    exact absurd h (not_le.2 this)

/-- The lowest eigenvalue is below every Rayleigh quotient. -/
theorem lowest_le_quotient {n : Nat} {M : Matrix (Fin n) (Fin n) K} (hM : M.IsSymm) {mu : Fin n → K} {w : Fin n → Fin n → K}
    (he : ∀ k, M *ᵥ w k = mu k • w k) (hw : ∀ i j, w i ⬝ᵥ w j = if i = j then 1 else 0) (m : K) (hm : ∀ k, m ≤ mu k)
    (y : Fin n → K) : m * (y ⬝ᵥ y) ≤ y ⬝ᵥ (M *ᵥ y) := by
  rw [complete hw y y, complete hw y (M *ᵥ y), mul_sum]
  refine sum_le_sum fun k _ => ?_
  rw [symm_dot hM (w k) y, he k, smul_dotProduct, smul_eq_mul]
  have h1 : 0 ≤ (w k ⬝ᵥ y) * (w k ⬝ᵥ y) := mul_self_nonneg _
  nlinarith [hm k, mul_le_mul_of_nonneg_right (hm k) h1]

/-- A vector with a small residue is close to an eigenvalue. -/
theorem near_eigenvalue {n : Nat} {M : Matrix (Fin n) (Fin n) K} (hM : M.IsSymm) {mu : Fin n → K} {w : Fin n → Fin n → K}
    (he : ∀ k, M *ᵥ w k = mu k • w k) (hw : ∀ i j, w i ⬝ᵥ w j = if i = j then 1 else 0) (u : Fin n → K) (hu : u ⬝ᵥ u = 1)
    (lam t : K) (ht : 0 ≤ t) (hr : (lam • u - M *ᵥ u) ⬝ᵥ (lam • u - M *ᵥ u) ≤ t * t) : ∃ k, |mu k - lam| ≤ t := by
  by_contra hc
  push Not at hc
  have hk : ∀ k, w k ⬝ᵥ (lam • u - M *ᵥ u) = (lam - mu k) * (w k ⬝ᵥ u) := by
    intro k
    rw [dotProduct_sub, dotProduct_smul, symm_dot hM, he k, smul_dotProduct, smul_eq_mul, smul_eq_mul]
    ring
  rw [complete hw] at hr hu
  simp only [hk] at hr
  have hne : ∃ k, w k ⬝ᵥ u ≠ 0 := by
    by_contra h
    push Not at h
    simp [h] at hu
  have hlt : ∑ k, t * t * ((w k ⬝ᵥ u) * (w k ⬝ᵥ u)) < ∑ k, (lam - mu k) * (w k ⬝ᵥ u) * ((lam - mu k) * (w k ⬝ᵥ u)) := by
    have hsq : ∀ k, t * t < (lam - mu k) * (lam - mu k) := by
      intro k
      have h1 := mul_lt_mul'' (hc k) (hc k) ht ht
      rw [abs_mul_abs_self] at h1
      calc t * t < _ := h1
        _ = _ := by ring
    obtain ⟨k0, hk0⟩ := hne
    refine sum_lt_sum (fun k _ => ?_) ⟨k0, mem_univ _, ?_⟩
    · have := mul_le_mul_of_nonneg_right (hsq k).le (mul_self_nonneg (w k ⬝ᵥ u))
      calc _ ≤ _ := this
        _ = _ := by ring
    · have := mul_lt_mul_of_pos_right (hsq k0) (mul_self_pos.2 hk0)
      calc _ < _ := this
        _ = _ := by ring
  rw [← mul_sum, hu, mul_one] at hlt
  exact absurd hr (not_le.2 hlt)

end

/-! ### The Rayleigh-Ritz step -/

section
variable {K : Type} [Field K] [LinearOrder K] {d : Nat}

theorem pyGet_fail {α : Type} {l : List α} {i : Nat} (h : l.length ≤ i) : pyGet l i = .error .indexError := by
  unfold pyGet
  rw [List.getElem?_eq_none h]

theorem pyGet_get {α : Type} {l : List α} {i : Nat} (h : i < l.length) : pyGet l i = .ok l[i] := by
  unfold pyGet
  rw [List.getElem?_eq_getElem h]

/-- `mapM` with a failing element, all failures being the same exception. -/
theorem mapM_error {α β : Type} {f : α → Py β} {e : PyErr} : ∀ {l : List α}, (∀ x ∈ l, (∃ y, f x = .ok y) ∨ f x = .error e) →
    (∃ x ∈ l, f x = .error e) → l.mapM f = .error e
  | [], _, h => by obtain ⟨x, hx, _⟩ := h; simp at hx
  | a :: l, h1, h2 => by
    rw [List.mapM_cons]
    rcases h1 a (by simp) with ⟨y, hy⟩ | hy
    · have : l.mapM f = .error e := by
        refine mapM_error (fun x hx => h1 x (List.mem_cons_of_mem _ hx)) ?_
        obtain ⟨x, hx, hfx⟩ := h2
        rcases List.mem_cons.1 hx with rfl | hx
        · rw [hy] at hfx; cases hfx
        · exact ⟨x, hx, hfx⟩
      rw [hy]
      show (l.mapM f >>= fun r => _) = _
      rw [this]
      rfl
    · rw [hy]; rfl

/-- The result of the Rayleigh-Ritz step. -/
theorem ritz_spec (L : LinAlg K) (A : Matrix (Fin d) (Fin d) K) (V : List (Fin d → K)) (nb : Nat) (h : nb ≤ V.length) :
    ∃ idx : List (Fin V.length), idx.length = nb ∧ idx.Nodup ∧
      LowPositions (List.ofFn (L.eigh V.length (rayleigh A V)).1) nb (idx.map Fin.val) ∧
      ritz L A V nb = .ok (idx.map (L.eigh V.length (rayleigh A V)).1,
        idx.map (fun i => combine V ((L.eigh V.length (rayleigh A V)).2 i)),
        idx.map (fun i => (L.eigh V.length (rayleigh A V)).1 i • combine V ((L.eigh V.length (rayleigh A V)).2 i) -
          A *ᵥ combine V ((L.eigh V.length (rayleigh A V)).2 i))) := by
  set e := L.eigh V.length (rayleigh A V) with he
  obtain ⟨idx0, h1, h2⟩ := getLowestsEig_spec (0 : Fin V.length → K) (List.ofFn e.1) (List.ofFn e.2) (by simp) nb
  have hlt : ∀ i ∈ idx0, i < V.length := by intro i hi; simpa using h2.2.2.1 i hi
  obtain ⟨idx, rfl⟩ : ∃ idx : List (Fin V.length), idx.map Fin.val = idx0 :=
    ⟨idx0.pmap (fun i hi => ⟨i, hi⟩) hlt, by simp [List.map_pmap]⟩
  have hlen : idx.length = nb := by
    have := h2.2.1
    simp only [List.length_map, List.length_ofFn] at this
    omega
  have e1 : (idx.map Fin.val).map (fun i => (List.ofFn e.1).getD i 0) = idx.map e.1 := by
    rw [List.map_map]
    apply List.map_congr_left
    intro i _
    simp [List.getD_eq_getElem?_getD]
  have e2 : (idx.map Fin.val).map (fun i => (List.ofFn e.2).getD i 0) = idx.map e.2 := by
    rw [List.map_map]
    apply List.map_congr_left
    intro i _
    simp [List.getD_eq_getElem?_getD]
  rw [e1, e2] at h1
  refine ⟨idx, hlen, (List.Nodup.of_map _ h2.1), h2, ?_⟩
  unfold ritz
  refine bind_ok h1 ?_
  have e3 : (idx.map e.2).map (combine V) = idx.map (fun i => combine V (e.2 i)) := by
    rw [List.map_map]; rfl
  rw [e3]
  refine bind_ok (a := idx.map (fun i => e.1 i • combine V (e.2 i) - A *ᵥ combine V (e.2 i))) ?_ rfl
  refine (mapM_ok (g := fun (col : Nat) => (idx.map (fun i => e.1 i • combine V (e.2 i) - A *ᵥ combine V (e.2 i))).getD col 0) ?_).trans ?_
  · intro col hcol
    have hcol : col < idx.length := by rw [hlen]; exact List.mem_range.1 hcol
    refine bind_ok (pyGet_get (by simpa using hcol)) (bind_ok (pyGet_get (by simpa using hcol)) (bind_ok (pyGet_get (by simpa using hcol)) ?_))
    simp only [List.getElem_map, List.getD_eq_getElem?_getD, List.getElem?_map, List.getElem?_eq_getElem hcol, Option.map_some,
      Option.getD_some, mulVec_combine]
    rfl
  · congr 1
    apply List.ext_getElem (by simp [hlen])
    intro k h3 h4
    simp only [List.length_map] at h4
    simp [List.getD_eq_getElem?_getD, h4]

/-- The Rayleigh-Ritz step fails when the search space is too small. -/
theorem ritz_fail (L : LinAlg K) (A : Matrix (Fin d) (Fin d) K) (V : List (Fin d → K)) (nb : Nat) (h : V.length < nb) :
    ritz L A V nb = .error .indexError := by
  obtain ⟨idx, h1, h2⟩ := getLowestsEig_spec (0 : Fin V.length → K) (List.ofFn (L.eigh V.length (rayleigh A V)).1)
    (List.ofFn (L.eigh V.length (rayleigh A V)).2) (by simp) nb
  have hlen : idx.length = V.length := by
    have := h2.2.1
    simp only [List.length_ofFn] at this
    omega
  unfold ritz
  refine bind_ok h1 ?_
  have : ∀ {α β : Type} {x : Py α} {f : α → Py β} {e : PyErr}, x = .error e → (x >>= f) = .error e := by
    intro α β x f e hx; rw [hx]; rfl
  refine this ?_
  refine mapM_error ?_ ⟨V.length, List.mem_range.2 h, ?_⟩
  · intro col _
    rcases Nat.lt_or_ge col V.length with hc | hc
    · exact Or.inl ⟨_, bind_ok (pyGet_get (by simp [hlen, hc])) (bind_ok (pyGet_get (by simp [hlen, hc]))
        (bind_ok (pyGet_get (by simp [hlen, hc])) rfl))⟩
    · exact Or.inr (this (pyGet_fail (by simp [hlen, hc])))
  · exact this (pyGet_fail (by simp [hlen]))

/-- Whatever the library returns, the vectors come with their true residues. -/
theorem ritz_ok {L : LinAlg K} {A : Matrix (Fin d) (Fin d) K} {V : List (Fin d → K)} {nb : Nat}
    {vals : List K} {us rs : List (Fin d → K)} (h : ritz L A V nb = .ok (vals, us, rs)) :
    nb ≤ V.length ∧ vals.length = nb ∧ us.length = nb ∧ rs.length = nb ∧
      ∀ k (h1 : k < vals.length) (h2 : k < us.length) (h3 : k < rs.length), rs[k] = vals[k] • us[k] - A *ᵥ us[k] := by
  have hnb : nb ≤ V.length := by
    by_contra hc
    rw [ritz_fail L A V nb (by omega)] at h
    cases h
  obtain ⟨idx, h1, _, _, h4⟩ := ritz_spec L A V nb hnb
  rw [h4] at h
  have h := Except.ok.inj h
  simp only [Prod.mk.injEq] at h
  obtain ⟨rfl, rfl, rfl⟩ := h
  refine ⟨hnb, by simp [h1], by simp [h1], by simp [h1], ?_⟩
  intro k _ _ _
  simp

end

end TJ
