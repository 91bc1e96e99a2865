/-
Vectors and functions of the occupations; symmetry and lower bound of the total spin.
-/
import Verif.Lemmas.SpinOp
import Mathlib.Algebra.Order.Ring.Abs
import Mathlib.Tactic.Linarith

namespace TJ

open Finset

section
variable {K : Type} [Field K] {c : Config} {dets : List (List Nat)}

theorem exists_conf (hb : constructBasis c = .ok dets) (hn : c.nholes + c.nbeta ≤ c.nsites) {σ : Conf c.nsites}
    (h1 : σ.count .hole = c.nholes) (h2 : σ.count .down = c.nbeta) : ∃ k, ∃ hk : k < dets.length, conf c dets[k] = σ := by
  let τ : Nat → Occ := fun s => if h : s < c.nsites then σ ⟨s, h⟩ else .hole
  have hτ : (fun s : Fin c.nsites => τ s) = σ := by
    funext s
    simp [τ]
  have h1' : cnt c.nsites τ .hole = c.nholes := by rw [← count_eq_cnt, hτ, h1]
  have h2' : cnt c.nsites τ .down = c.nbeta := by rw [← count_eq_cnt, hτ, h2]
  obtain ⟨g1, g2⟩ := idx_spec hn hb h1' h2'
  exact ⟨_, g1, ((g2 _ g1).1 rfl).trans hτ⟩

theorem amp_outside (hb : constructBasis c = .ok dets) (hn : c.nholes + c.nbeta ≤ c.nsites) (v : List K) {σ : Conf c.nsites}
    (h : ¬ (σ.count .hole = c.nholes ∧ σ.count .down = c.nbeta)) : amp c dets v σ = 0 := by
  unfold amp
  apply sum_eq_zero
  intro j hj
  have hj := mem_range.1 hj
  rw [getD_dets hj, if_neg]
  rintro rfl
  have := (canonical_getElem hb j hj).1
  exact h ⟨count_conf_hole hn this, count_conf_down hn this⟩

theorem amp_ext (hb : constructBasis c = .ok dets) (hn : c.nholes + c.nbeta ≤ c.nsites) {w : List K} {F : Conf c.nsites → K}
    (h1 : ∀ k (hk : k < dets.length), w.getD k 0 = F (conf c dets[k]))
    (h2 : ∀ σ : Conf c.nsites, ¬ (σ.count .hole = c.nholes ∧ σ.count .down = c.nbeta) → F σ = 0) : amp c dets w = F := by
  funext σ
  by_cases h : σ.count .hole = c.nholes ∧ σ.count .down = c.nbeta
  · obtain ⟨k, hk, rfl⟩ := exists_conf hb hn h.1 h.2
    rw [amp_conf hb w hk, h1 k hk]
  · rw [amp_outside hb hn w h, h2 σ h]

theorem sum_amp (hb : constructBasis c = .ok dets) (hn : c.nholes + c.nbeta ≤ c.nsites) (G : Conf c.nsites → K)
    (h : ∀ σ : Conf c.nsites, ¬ (σ.count .hole = c.nholes ∧ σ.count .down = c.nbeta) → G σ = 0) :
    (∑ σ, G σ) = ∑ k ∈ range dets.length, G (conf c (dets.getD k [])) := by
  symm
  have hinj : Set.InjOn (fun k => conf c (dets.getD k [])) (range dets.length : Set Nat) := by
    intro i hi j hj e
    have hi := mem_range.1 hi
    have hj := mem_range.1 hj
    simp only [getD_dets hi, getD_dets hj] at e
    exact conf_inj hb hi hj e
  rw [← sum_image hinj]
  apply sum_subset (subset_univ _)
  intro σ _ hσ
  apply h
  rintro ⟨g1, g2⟩
  obtain ⟨k, hk, rfl⟩ := exists_conf hb hn g1 g2
  exact hσ (mem_image.2 ⟨k, mem_range.2 hk, by rw [getD_dets hk]⟩)

theorem vdot_amp (hb : constructBasis c = .ok dets) (hn : c.nholes + c.nbeta ≤ c.nsites) (v w : List K)
    (hv : v.length = dets.length) (hw : w.length = dets.length) :
    vdot v w = ∑ σ, amp c dets v σ * amp c dets w σ := by
  rw [sum_amp hb hn _ (fun σ h => by rw [amp_outside hb hn v h, zero_mul])]
  unfold vdot
  rw [zipWith_sum_eq v w _ hv hw]
  refine sum_congr rfl fun k hk => ?_
  have hk := mem_range.1 hk
  rw [getD_dets hk, amp_conf hb v hk, amp_conf hb w hk]

theorem exch_comp {n : Nat} (σ : Conf n) (a b : Fin n) : exch σ a b = fun s => σ (Equiv.swap a b s) := rfl

theorem spin2_outside (hb : constructBasis c = .ok dets) (hn : c.nholes + c.nbeta ≤ c.nsites) (v : List K) {σ : Conf c.nsites}
    (h : ¬ (σ.count .hole = c.nholes ∧ σ.count .down = c.nbeta)) : spin2 (amp c dets v) σ = 0 := by
  unfold spin2
  have : ∀ a b, amp c dets v (exch σ a b) = 0 := by
    intro a b
    apply amp_outside hb hn
    rw [exch_comp, count_comp, count_comp]
    exact h
  simp [this, amp_outside hb hn v h]

/-- The vector of the total spin, as a function of the occupations. -/
theorem amp_S2 (hb : constructBasis c = .ok dets) (hn : c.nholes + c.nbeta ≤ c.nsites) (v w : List K)
    (h : ∀ k (hk : k < dets.length), w.getD k 0 = spin2 (amp c dets v) (conf c dets[k])) :
    amp c dets w = spin2 (amp c dets v) :=
  amp_ext hb hn h (fun _ h => spin2_outside hb hn v h)

theorem getD_matVec {H : SpMat K} {v : List K} {k : Nat} (hk : k < H.dim) :
    (matVec H v).getD k 0 = ∑ j ∈ range H.dim, H.entry k j * v.getD j 0 := by
  simp [matVec, List.getD_eq_getElem?_getD, hk]

/-- Product with a matrix whose entries are an exchange kernel. -/
theorem matVec_amp (hb : constructBasis c = .ok dets) (hn : c.nholes + c.nbeta ≤ c.nsites) {H : SpMat K} (hd : H.dim = dets.length)
    {M : Conf c.nsites → Conf c.nsites → K} (hM : ExchKernel M)
    (he : ∀ i (hi : i < dets.length) j (hj : j < dets.length), H.entry i j = M (conf c dets[i]) (conf c dets[j])) (v : List K) :
    (∀ k (hk : k < dets.length), (matVec H v).getD k 0 = ∑ τ, M (conf c dets[k]) τ * amp c dets v τ) ∧
      amp c dets (matVec H v) = fun σ => ∑ τ, M σ τ * amp c dets v τ := by
  have h1 : ∀ k (hk : k < dets.length), (matVec H v).getD k 0 = ∑ τ, M (conf c dets[k]) τ * amp c dets v τ := by
    intro k hk
    rw [getD_matVec (by omega), sum_amp hb hn _ (fun σ h => by rw [amp_outside hb hn v h, mul_zero]), hd]
    refine sum_congr rfl fun j hj => ?_
    have hj := mem_range.1 hj
    rw [getD_dets hj, amp_conf hb v hj, he k hk j hj]
  refine ⟨h1, amp_ext hb hn h1 ?_⟩
  intro σ hσ
  obtain ⟨X, _, k, π, _, h⟩ := hM
  rw [h]
  apply sum_eq_zero
  intro x _
  rw [amp_outside hb hn v, mul_zero]
  rw [count_comp, count_comp]
  exact hσ

end

/-! ### Symmetry and lower bound -/

section
variable {K : Type} [Field K] {n : Nat}

/-- The exchange of two sites as a bijection of the occupations. -/
def exchEquiv (a b : Fin n) : Conf n ≃ Conf n where
  toFun σ := exch σ a b
  invFun σ := exch σ a b
  left_inv σ := exch_exch σ a b
  right_inv σ := exch_exch σ a b

theorem spin2_symm (φ ψ : Conf n → K) : (∑ σ, ψ σ * spin2 φ σ) = ∑ σ, spin2 ψ σ * φ σ := by
  have h1 : ∀ (φ ψ : Conf n → K) σ, ψ σ * spin2 φ σ = 3 / 4 * (σ.electrons : K) * (ψ σ * φ σ) +
      ∑ a, ∑ b, ((if a < b ∧ σ a ≠ .hole ∧ σ b ≠ .hole then ψ σ * φ (exch σ a b) else 0) -
        (if a < b ∧ σ a ≠ .hole ∧ σ b ≠ .hole then ψ σ * φ σ / 2 else 0)) := by
    intro φ ψ σ
    unfold spin2
    rw [mul_add, mul_sum]
    congr 1
    · ring
    · refine sum_congr rfl fun a _ => ?_
      rw [mul_sum]
      refine sum_congr rfl fun b _ => ?_
      split_ifs <;> ring
  have h2 : (∑ σ : Conf n, ∑ a, ∑ b, (if a < b ∧ σ a ≠ .hole ∧ σ b ≠ .hole then ψ σ * φ (exch σ a b) else 0)) =
      ∑ σ : Conf n, ∑ a, ∑ b, (if a < b ∧ σ a ≠ .hole ∧ σ b ≠ .hole then φ σ * ψ (exch σ a b) else 0) := by
    rw [sum_comm, sum_comm (s := univ (α := Conf n))]
    refine sum_congr rfl fun a _ => ?_
    rw [sum_comm, sum_comm (s := univ (α := Conf n))]
    refine sum_congr rfl fun b _ => ?_
    rw [← Equiv.sum_comp (exchEquiv a b)]
    refine sum_congr rfl fun σ _ => ?_
    show (if a < b ∧ exch σ a b a ≠ .hole ∧ exch σ a b b ≠ .hole then ψ (exch σ a b) * φ (exch (exch σ a b) a b) else 0) = _
    rw [exch_left, exch_right, exch_exch, mul_comm]
    simp only [and_comm (a := σ b ≠ .hole)]
  have h3 : (∑ σ, spin2 ψ σ * φ σ) = ∑ σ, φ σ * spin2 ψ σ := sum_congr rfl fun σ _ => mul_comm _ _
  rw [h3]
  simp only [h1, sum_add_distrib, sum_sub_distrib, h2]
  simp only [mul_comm (φ _) (ψ _)]

/-- Changing the content of one site is a bijection between the occupations with the one
and with the other content. -/
theorem flip_sum {o p : Occ} (a : Fin n) (G : Conf n → K) :
    (∑ τ : Conf n, if τ a = o then G (Function.update τ a p) else 0) = ∑ σ : Conf n, if σ a = p then G σ else 0 := by
  rw [← sum_filter, ← sum_filter]
  apply sum_nbij' (fun τ => Function.update τ a p) (fun σ => Function.update σ a o)
  · intro τ hτ; simp
  · intro σ hσ; simp
  · intro τ hτ
    have : τ a = o := (mem_filter.1 hτ).2
    simp only [Function.update_idem]
    rw [← this, Function.update_eq_self]
  · intro σ hσ
    have : σ a = p := (mem_filter.1 hσ).2
    simp only [Function.update_idem]
    rw [← this, Function.update_eq_self]
  · intro τ _; rfl

theorem sum_count (σ : Conf n) (o : Occ) (x : K) : (∑ a, if σ a = o then x else 0) = (σ.count o : K) * x := by
  unfold Conf.count
  rw [← sum_filter, sum_const, nsmul_eq_mul]

/-- Norm of the vector with one spin changed from `p` to `o`. -/
theorem ladder_norm (o p : Occ) (hop : o ≠ p) (ho : o ≠ .hole) (hp : p ≠ .hole) (φ : Conf n → K) :
    (∑ τ : Conf n, (∑ a, if τ a = o then φ (Function.update τ a p) else 0) ^ 2) =
      (∑ σ : Conf n, (σ.count p : K) * φ σ ^ 2) +
      ∑ σ : Conf n, ∑ a, ∑ b, if a < b ∧ σ a ≠ .hole ∧ σ b ≠ .hole ∧ σ a ≠ σ b then φ σ * φ (exch σ a b) else 0 := by
  have e1 : ∀ τ : Conf n, (∑ a, if τ a = o then φ (Function.update τ a p) else 0) ^ 2 =
      ∑ a, ∑ b, if τ a = o then (if τ b = o then φ (Function.update τ a p) * φ (Function.update τ b p) else 0) else 0 := by
    intro τ
    rw [sq, sum_mul_sum]
    refine sum_congr rfl fun a _ => sum_congr rfl fun b _ => ?_
    split_ifs <;> simp
  have e2 : ∀ a b : Fin n, (∑ τ : Conf n, if τ a = o then (if τ b = o then φ (Function.update τ a p) * φ (Function.update τ b p) else 0) else 0) =
      ∑ σ : Conf n, if a = b then (if σ a = p then φ σ ^ 2 else 0) else (if σ a = p ∧ σ b = o then φ σ * φ (exch σ a b) else 0) := by
    intro a b
    by_cases hab : a = b
    · subst hab
      simp only [if_true]
      rw [← flip_sum (o := o) (p := p) a (fun σ => φ σ ^ 2)]
      refine sum_congr rfl fun τ _ => ?_
      split_ifs
      · ring
      · rfl
    · simp only [if_neg hab, ite_and]
      rw [← flip_sum (o := o) (p := p) a (fun σ => if σ b = o then φ σ * φ (exch σ a b) else 0)]
      refine sum_congr rfl fun τ _ => ?_
      by_cases h1 : τ a = o
      · simp only [if_pos h1, Function.update_of_ne (Ne.symm hab)]
        by_cases h2 : τ b = o
        · simp only [if_pos h2]
          congr 2
          funext s
          unfold exch
          rw [Equiv.swap_apply_def]
          by_cases q1 : s = a
          · subst q1
            rw [if_pos rfl, Function.update_of_ne hab, Function.update_of_ne (Ne.symm hab), h1, h2]
          by_cases q2 : s = b
          · subst q2
            rw [if_neg q1, if_pos rfl, Function.update_self, Function.update_self]
          · rw [if_neg q1, if_neg q2, Function.update_of_ne q2, Function.update_of_ne q1]
        · simp only [if_neg h2]
      · simp only [if_neg h1]
  rw [sum_congr rfl fun τ _ => e1 τ, sum_comm, sum_congr rfl fun a _ => sum_comm]
  rw [sum_congr rfl fun a _ => sum_congr rfl fun b _ => e2 a b]
  rw [sum_congr rfl fun a _ => sum_comm, sum_comm, ← sum_add_distrib]
  refine sum_congr rfl fun σ _ => ?_
  have e3 : ∀ a b : Fin n, (if a = b then (if σ a = p then φ σ ^ 2 else 0) else (if σ a = p ∧ σ b = o then φ σ * φ (exch σ a b) else 0)) =
      (if a = b then (if σ a = p then φ σ ^ 2 else 0) else 0) +
      ((if a < b then (if σ a = p ∧ σ b = o then φ σ * φ (exch σ a b) else 0) else 0) +
       (if b < a then (if σ a = p ∧ σ b = o then φ σ * φ (exch σ a b) else 0) else 0)) := by
    intro a b
    rcases lt_trichotomy a b with h | h | h
    · simp [h, h.ne, not_lt.2 h.le]
    · simp [h]
    · simp [h, h.ne', not_lt.2 h.le]
  simp only [e3, sum_add_distrib]
  congr 1
  · simp only [sum_ite_eq, mem_univ, if_true]
    rw [sum_count]
  · rw [sum_comm (f := fun a b => if b < a then (if σ a = p ∧ σ b = o then φ σ * φ (exch σ a b) else 0) else 0), ← sum_add_distrib]
    refine sum_congr rfl fun a _ => ?_
    rw [← sum_add_distrib]
    refine sum_congr rfl fun b _ => ?_
    by_cases hab : a < b
    · rw [exch_comm σ b a]
      generalize φ (exch σ a b) = x
      simp only [if_pos hab, hab, true_and]
      cases o <;> cases p <;> cases σ a <;> cases σ b <;> simp_all
    · simp [hab]

/-- Lower bound on the expectation value of the total spin. -/
theorem spin2_bound [LinearOrder K] [IsStrictOrderedRing K] (φ : Conf n → K) (A B : Nat)
    (hφ : ∀ σ, φ σ ≠ 0 → σ.count .up = A ∧ σ.count .down = B) :
    (|(A : K) - B| / 2) * (|(A : K) - B| / 2 + 1) * (∑ σ, φ σ * φ σ) ≤ ∑ σ, φ σ * spin2 φ σ := by
  have h2 : (2 : K) ≠ 0 := two_ne_zero
  set Q := ∑ σ : Conf n, ∑ a, ∑ b, if a < b ∧ σ a ≠ .hole ∧ σ b ≠ .hole ∧ σ a ≠ σ b then φ σ * φ (exch σ a b) else 0 with hQ
  set N2 := ∑ σ, φ σ * φ σ with hN
  have hcount : ∀ o : Occ, ∀ C : Nat, (∀ σ, φ σ ≠ 0 → σ.count o = C) → (∑ σ : Conf n, (σ.count o : K) * φ σ ^ 2) = C * N2 := by
    intro o C h
    rw [hN, mul_sum]
    refine sum_congr rfl fun σ _ => ?_
    by_cases h0 : φ σ = 0
    · simp [h0]
    · rw [h σ h0]; ring
  have l1 := ladder_norm .up .down (by decide) (by decide) (by decide) φ
  have l2 := ladder_norm .down .up (by decide) (by decide) (by decide) φ
  rw [hcount .down B (fun σ h => (hφ σ h).2)] at l1
  rw [hcount .up A (fun σ h => (hφ σ h).1)] at l2
  have p1 : 0 ≤ (B : K) * N2 + Q := by rw [hQ, ← l1]; exact sum_nonneg fun _ _ => sq_nonneg _
  have p2 : 0 ≤ (A : K) * N2 + Q := by rw [hQ, ← l2]; exact sum_nonneg fun _ _ => sq_nonneg _
  have e : (∑ σ, φ σ * spin2 φ σ) = (((A : K) + B) / 2 + ((A : K) - B) ^ 2 / 4) * N2 + Q := by
    rw [hN, hQ, mul_sum, ← sum_add_distrib]
    refine sum_congr rfl fun σ _ => ?_
    rw [spin2_eq h2, mul_add, mul_sum]
    congr 1
    · by_cases h0 : φ σ = 0
      · simp [h0]
      · obtain ⟨g1, g2⟩ := hφ σ h0
        unfold Conf.electrons
        rw [g1, g2, Nat.cast_add]; ring
    · refine sum_congr rfl fun a _ => ?_
      rw [mul_sum]
      refine sum_congr rfl fun b _ => ?_
      rw [mul_ite, mul_zero]
  rw [e]
  rcases le_total (A : K) B with h | h
  · rw [abs_of_nonpos (by linarith)]
    nlinarith
  · rw [abs_of_nonneg (by linarith)]
    nlinarith

end

end TJ
