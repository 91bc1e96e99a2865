/-
Total spin on functions of the occupations; exchange operators.
-/
import Verif.Spec.Spin
import Verif.Lemmas.HamSym
import Mathlib.Tactic.FieldSimp
import Mathlib.Tactic.LinearCombination
import Mathlib.Algebra.Order.BigOperators.Group.Finset
import Mathlib.Algebra.Order.Field.Basic
import Mathlib.Algebra.BigOperators.Field

namespace TJ

open Finset

section
variable {K : Type} [Field K] {n : Nat}

/-- Occupations with the same holes. -/
def SameHoles (σ τ : Conf n) : Prop := ∀ s, σ s = .hole ↔ τ s = .hole

/-- A kernel that permutes the sites, with weights that depend on the holes only. -/
def ExchKernel (M : Conf n → Conf n → K) : Prop :=
  ∃ (X : Type) (_ : Fintype X) (k : X → Conf n → K) (π : X → Fin n ≃ Fin n),
    (∀ x σ τ, SameHoles σ τ → k x σ = k x τ) ∧
    ∀ (φ : Conf n → K) σ, (∑ τ, M σ τ * φ τ) = ∑ x, k x σ * φ (fun s => σ (π x s))

theorem ExchKernel.add {M N : Conf n → Conf n → K} (h : ExchKernel M) (h' : ExchKernel N) :
    ExchKernel (fun σ τ => M σ τ + N σ τ) := by
  obtain ⟨X, _, k, π, h1, h2⟩ := h
  obtain ⟨Y, _, l, ρ, g1, g2⟩ := h'
  refine ⟨X ⊕ Y, inferInstance, Sum.elim k l, Sum.elim π ρ, ?_, ?_⟩
  · rintro (x | y) σ τ h
    · exact h1 x σ τ h
    · exact g1 y σ τ h
  · intro φ σ
    simp only [add_mul, sum_add_distrib, Fintype.sum_sum_type, Sum.elim_inl, Sum.elim_inr, h2, g2]

theorem ExchKernel.zero : ExchKernel (fun _ _ : Conf n => (0 : K)) :=
  ⟨Empty, inferInstance, fun x => x.elim, fun x => x.elim, fun x => x.elim, fun φ σ => by simp⟩

theorem ExchKernel.ite {M : Conf n → Conf n → K} (b : Bool) (h : ExchKernel M) :
    ExchKernel (fun σ τ => if b then M σ τ else 0) := by
  cases b
  · simpa using ExchKernel.zero
  · simpa using h

theorem ExchKernel.of_eq {M N : Conf n → Conf n → K} (h : ExchKernel M) (e : ∀ σ τ, N σ τ = M σ τ) : ExchKernel N := by
  have : N = M := by funext σ τ; exact e σ τ
  rw [this]; exact h

/-- Kernel of a sum over pairs of sites. -/
theorem ExchKernel.pairs {M : Conf n → Conf n → K} (k : Fin n → Fin n → Conf n → K) (π : Fin n → Fin n → Fin n ≃ Fin n)
    (hk : ∀ a b σ τ, SameHoles σ τ → k a b σ = k a b τ)
    (h : ∀ (φ : Conf n → K) σ, (∑ τ, M σ τ * φ τ) = ∑ a, ∑ b, k a b σ * φ (fun s => σ (π a b s))) : ExchKernel M := by
  refine ⟨Fin n × Fin n, inferInstance, fun x => k x.1 x.2, fun x => π x.1 x.2, fun x => hk x.1 x.2, ?_⟩
  intro φ σ
  rw [h, Fintype.sum_prod_type]

theorem sum_kernel_ite {P : Prop} [Decidable P] (x : K) (ρ : Conf n) (φ : Conf n → K) :
    (∑ τ, (if P ∧ τ = ρ then x else 0) * φ τ) = if P then x * φ ρ else 0 := by
  by_cases h : P
  · simp [h]
  · simp [h]

theorem hop_sum (I : Interactions K) (pos : Fin n → Pt) (φ : Conf n → K) (σ : Conf n) : (∑ τ, hopEl I pos σ τ * φ τ) =
    ∑ a, ∑ b, (if σ a = .hole ∧ σ b ≠ .hole ∧ Near (pos a) (pos b) then I.t else 0) * φ (fun s => σ (Equiv.swap a b s)) := by
  unfold hopEl
  simp only [Finset.sum_mul]
  rw [sum_comm]
  refine sum_congr rfl fun a _ => ?_
  rw [sum_comm]
  refine sum_congr rfl fun b _ => ?_
  have := sum_kernel_ite (P := σ a = .hole ∧ σ b ≠ .hole ∧ Near (pos a) (pos b)) I.t (exch σ a b) φ
  simp only [and_assoc] at this
  rw [this, ite_mul, zero_mul]
  rfl

theorem hop_kernel (I : Interactions K) (pos : Fin n → Pt) : ExchKernel (hopEl I pos) := by
  refine .pairs (fun a b σ => if σ a = .hole ∧ σ b ≠ .hole ∧ Near (pos a) (pos b) then I.t else 0) (fun a b => Equiv.swap a b) ?_
    (hop_sum I pos)
  intro a b σ τ h
  simp only [h a, h b, ne_eq]

theorem next_sum (I : Interactions K) (pos : Fin n → Pt) (φ : Conf n → K) (σ : Conf n) : (∑ τ, nextEl I pos σ τ * φ τ) =
    ∑ a, ∑ b, (if σ a = .hole ∧ σ b ≠ .hole ∧ (∃ m, Near (pos a) (pos m) ∧ Near (pos m) (pos b)) then
      (if (pos a).1 = (pos b).1 ∨ (pos a).2 = (pos b).2 then I.tnNNN else I.tNNN) else 0) * φ (fun s => σ (Equiv.swap a b s)) := by
  unfold nextEl
  simp only [Finset.sum_mul]
  rw [sum_comm]
  refine sum_congr rfl fun a _ => ?_
  rw [sum_comm]
  refine sum_congr rfl fun b _ => ?_
  have := sum_kernel_ite (P := σ a = .hole ∧ σ b ≠ .hole ∧ (∃ m, Near (pos a) (pos m) ∧ Near (pos m) (pos b)))
    (if (pos a).1 = (pos b).1 ∨ (pos a).2 = (pos b).2 then I.tnNNN else I.tNNN) (exch σ a b) φ
  simp only [and_assoc] at this
  rw [this, ite_zero_mul]
  rfl

theorem next_kernel (I : Interactions K) (pos : Fin n → Pt) : ExchKernel (nextEl I pos) := by
  refine .pairs (fun a b σ => if σ a = .hole ∧ σ b ≠ .hole ∧ (∃ m, Near (pos a) (pos m) ∧ Near (pos m) (pos b)) then
    (if (pos a).1 = (pos b).1 ∨ (pos a).2 = (pos b).2 then I.tnNNN else I.tNNN) else 0) (fun a b => Equiv.swap a b) ?_ (next_sum I pos)
  intro a b σ τ h
  simp only [h a, h b, ne_eq]

theorem rep_kernel (I : Interactions K) (pos : Fin n → Pt) : ExchKernel (repEl I pos) := by
  refine ⟨Unit, inferInstance, fun _ σ => ∑ a, ∑ b, if a < b ∧ σ a = .hole ∧ σ b = .hole
      then (if Near (pos a) (pos b) then I.VNN else 0) + (if Diagonal (pos a) (pos b) then I.VNNNper else 0) else 0,
      fun _ => Equiv.refl _, ?_, ?_⟩
  · intro _ σ τ h
    simp only [h _]
  · intro φ σ
    unfold repEl
    simp

theorem static_flip_sum (h2 : (2 : K) ≠ 0) (I : Interactions K) (pos : Fin n → Pt) (φ : Conf n → K) (σ : Conf n) :
    (∑ τ, (staticEl I pos σ τ + flipEl I pos σ τ) * φ τ) =
      (∑ a, ∑ b, (if a < b ∧ Near (pos a) (pos b) ∧ σ a ≠ .hole ∧ σ b ≠ .hole then Jeff I pos σ a b / 2 else 0) * φ (exch σ a b)) +
      (∑ a, ∑ b, (if a < b ∧ Near (pos a) (pos b) ∧ σ a ≠ .hole ∧ σ b ≠ .hole then - (Jeff I pos σ a b / 2) else 0) * φ σ) := by
  simp only [add_mul, sum_add_distrib]
  have e1 : (∑ τ, staticEl I pos σ τ * φ τ) = ∑ a, ∑ b, (if a < b ∧ Near (pos a) (pos b) ∧ σ a ≠ .hole ∧ σ b ≠ .hole
    then Jeff I pos σ a b * ((σ a).val * (σ b).val - 1 / 4) else 0) * φ σ := by
    unfold staticEl
    simp only [ite_mul, zero_mul, sum_ite_eq', mem_univ, if_true, Finset.sum_mul]
  have e2 : (∑ τ, flipEl I pos σ τ * φ τ) = ∑ a, ∑ b,
    (if a < b ∧ Near (pos a) (pos b) ∧ σ a ≠ .hole ∧ σ b ≠ .hole ∧ σ a ≠ σ b then Jeff I pos σ a b / 2 else 0) * φ (exch σ a b) := by
    unfold flipEl
    simp only [Finset.sum_mul]
    rw [sum_comm]
    refine sum_congr rfl fun a _ => ?_
    rw [sum_comm]
    refine sum_congr rfl fun b _ => ?_
    have := sum_kernel_ite (P := a < b ∧ Near (pos a) (pos b) ∧ σ a ≠ .hole ∧ σ b ≠ .hole ∧ σ a ≠ σ b)
      (Jeff I pos σ a b / 2) (exch σ a b) φ
    simp only [and_assoc] at this
    rw [this, ite_mul, zero_mul]
  rw [e1, e2, ← sum_add_distrib, ← sum_add_distrib]
  refine sum_congr rfl fun a _ => ?_
  rw [← sum_add_distrib, ← sum_add_distrib]
  refine sum_congr rfl fun b _ => ?_
  by_cases h : a < b ∧ Near (pos a) (pos b) ∧ σ a ≠ .hole ∧ σ b ≠ .hole
  · by_cases hs : σ a = σ b
    · have hex : exch σ a b = σ := by
        funext s
        unfold exch
        rw [Equiv.swap_apply_def]
        split_ifs with h1 h2
        · rw [h1, hs]
        · rw [h2, hs]
        · rfl
      have hv : ((σ a).val * (σ b).val - 1 / 4 : K) = 0 := by
        rw [← hs]
        obtain ⟨_, _, h3, _⟩ := h
        generalize σ a = o at h3
        have h4 : (4 : K) = 2 * 2 := by norm_num
        cases o
        · exact absurd rfl h3
        · simp only [Occ.val]; rw [h4]; field_simp; norm_num
        · simp only [Occ.val]; rw [h4]; field_simp; norm_num
      rw [hex, hv, if_pos h, if_pos h, if_pos h, if_neg (fun g => g.2.2.2.2 hs)]
      ring
    · have hv : ((σ a).val * (σ b).val - 1 / 4 : K) = - (1 / 2) := by
        obtain ⟨_, _, h3, h5⟩ := h
        generalize σ a = o at h3 hs
        generalize σ b = p at h5 hs
        have h4 : (4 : K) = 2 * 2 := by norm_num
        cases o <;> cases p <;> first | exact absurd rfl h3 | exact absurd rfl h5 | exact absurd rfl hs | skip
        · simp only [Occ.val]; rw [h4]; field_simp; norm_num
        · simp only [Occ.val]; rw [h4]; field_simp; norm_num
      rw [hv, if_pos h, if_pos h, if_pos h, if_pos ⟨h.1, h.2.1, h.2.2.1, h.2.2.2, hs⟩]
      ring
  · have h' : ¬ (a < b ∧ Near (pos a) (pos b) ∧ σ a ≠ .hole ∧ σ b ≠ .hole ∧ σ a ≠ σ b) :=
      fun g => h ⟨g.1, g.2.1, g.2.2.1, g.2.2.2.1⟩
    simp only [if_neg h, if_neg h', zero_mul]

theorem static_flip_kernel (h2 : (2 : K) ≠ 0) (I : Interactions K) (pos : Fin n → Pt) :
    ExchKernel (fun σ τ => staticEl I pos σ τ + flipEl I pos σ τ) := by
  refine ⟨(Fin n × Fin n) ⊕ (Fin n × Fin n), inferInstance,
    Sum.elim (fun x σ => if x.1 < x.2 ∧ Near (pos x.1) (pos x.2) ∧ σ x.1 ≠ .hole ∧ σ x.2 ≠ .hole then Jeff I pos σ x.1 x.2 / 2 else 0)
      (fun x σ => if x.1 < x.2 ∧ Near (pos x.1) (pos x.2) ∧ σ x.1 ≠ .hole ∧ σ x.2 ≠ .hole then - (Jeff I pos σ x.1 x.2 / 2) else 0),
    Sum.elim (fun x => Equiv.swap x.1 x.2) (fun _ => Equiv.refl _), ?_, ?_⟩
  · rintro (x | x) σ τ h <;>
    simp only [Sum.elim_inl, Sum.elim_inr, h x.1, h x.2, ne_eq, Jeff_congr I pos h x.1 x.2]
  · intro φ σ
    rw [static_flip_sum h2, Fintype.sum_sum_type, Fintype.sum_prod_type, Fintype.sum_prod_type]
    rfl

/-- The permutation of a singlet displacement. -/
theorem shift3_perm {a m b : Fin n} (ham : a ≠ m) (hab : a ≠ b) (hmb : m ≠ b) (σ : Conf n) :
    shift3 σ a m b = fun s => σ ((Equiv.swap a m * Equiv.swap m b) s) := by
  funext s
  unfold shift3
  rw [Equiv.Perm.mul_apply]
  by_cases h1 : s = a
  · subst h1
    rw [if_pos rfl, Equiv.swap_apply_of_ne_of_ne ham hab, Equiv.swap_apply_left]
  by_cases h2 : s = m
  · subst h2
    rw [if_neg h1, if_pos rfl, Equiv.swap_apply_left, Equiv.swap_apply_of_ne_of_ne (Ne.symm hab) (Ne.symm hmb)]
  by_cases h3 : s = b
  · subst h3
    rw [if_neg h1, if_neg h2, if_pos rfl, Equiv.swap_apply_right, Equiv.swap_apply_right]
  · rw [if_neg h1, if_neg h2, if_neg h3, Equiv.swap_apply_of_ne_of_ne h2 h3, Equiv.swap_apply_of_ne_of_ne h1 h2]

theorem sd_kernel (I : Interactions K) (pos : Fin n → Pt) : ExchKernel (sdEl I pos) := by
  let h : Fin n → Fin n → Fin n → K := fun a m b => if Aligned (pos a) (pos m) (pos b) then I.hSDpar else I.hSDper
  have key : ∀ (φ : Conf n → K) σ, (∑ τ, sdEl I pos σ τ * φ τ) =
      (∑ a, ∑ m, ∑ b, (if σ a = .hole ∧ σ m ≠ .hole ∧ σ b ≠ .hole ∧ Near (pos a) (pos m) ∧ Near (pos m) (pos b) then h a m b else 0)
        * φ (fun s => σ ((Equiv.swap a m * Equiv.swap m b) s))) +
      (∑ a, ∑ m, ∑ b, (if σ a = .hole ∧ σ m ≠ .hole ∧ σ b ≠ .hole ∧ Near (pos a) (pos m) ∧ Near (pos m) (pos b) then - h a m b else 0)
        * φ (exch σ a b)) := by
    intro φ σ
    have e1 : (∑ τ, sdEl I pos σ τ * φ τ) = ∑ a, ∑ m, ∑ b,
        if σ a = .hole ∧ σ m ≠ .hole ∧ σ b = (σ m).rev ∧ Near (pos a) (pos m) ∧ Near (pos m) (pos b)
        then h a m b * (φ (shift3 σ a m b) - φ (exch σ a b)) else 0 := by
      unfold sdEl
      simp only [Finset.sum_mul]
      rw [sum_comm]
      refine sum_congr rfl fun a _ => ?_
      rw [sum_comm]
      refine sum_congr rfl fun m _ => ?_
      rw [sum_comm]
      refine sum_congr rfl fun b _ => ?_
      by_cases hcc : σ a = .hole ∧ σ m ≠ .hole ∧ σ b = (σ m).rev ∧ Near (pos a) (pos m) ∧ Near (pos m) (pos b)
      · simp only [if_pos hcc]
        show (∑ x, h a m b * ((if x = shift3 σ a m b then 1 else 0) - if x = exch σ a b then 1 else 0) * φ x) = _
        simp only [mul_assoc, ← mul_sum, sub_mul, sum_sub_distrib, ite_mul, one_mul, zero_mul, sum_ite_eq', mem_univ, if_true]
      · simp only [if_neg hcc, zero_mul, sum_const_zero]
    rw [e1, ← sum_add_distrib]
    refine sum_congr rfl fun a _ => ?_
    rw [← sum_add_distrib]
    refine sum_congr rfl fun m _ => ?_
    rw [← sum_add_distrib]
    refine sum_congr rfl fun b _ => ?_
    by_cases hc : σ a = .hole ∧ σ m ≠ .hole ∧ σ b ≠ .hole ∧ Near (pos a) (pos m) ∧ Near (pos m) (pos b)
    · obtain ⟨c1, c2, c3, c4, c5⟩ := hc
      have ham : a ≠ m := near_ne pos c4
      have hmb : m ≠ b := near_ne pos c5
      have hab : a ≠ b := fun e => c3 (e ▸ c1)
      have hc : σ a = .hole ∧ σ m ≠ .hole ∧ σ b ≠ .hole ∧ Near (pos a) (pos m) ∧ Near (pos m) (pos b) := ⟨c1, c2, c3, c4, c5⟩
      simp only [if_pos hc]
      rw [← shift3_perm ham hab hmb]
      by_cases hs : σ b = (σ m).rev
      · rw [if_pos ⟨c1, c2, hs, c4, c5⟩]; ring
      · rw [if_neg (fun g => hs g.2.2.1)]
        have he : σ b = σ m := by
          generalize σ b = o at *
          generalize σ m = p at *
          cases o <;> cases p <;> simp_all [Occ.rev]
        have : shift3 σ a m b = exch σ a b := by
          funext s
          unfold shift3 exch
          rw [Equiv.swap_apply_def]
          by_cases h1 : s = a
          · simp [h1, he]
          by_cases h3 : s = b
          · subst h3; simp [h1, Ne.symm hmb]
          by_cases h2 : s = m
          · subst h2; simp [h1, h3, he]
          · simp [h1, h2, h3]
        rw [this]; ring
    · rw [if_neg hc, if_neg hc, if_neg]
      · ring
      · rintro ⟨c1, c2, c3, c4, c5⟩
        refine hc ⟨c1, c2, ?_, c4, c5⟩
        rw [c3]
        intro e
        exact c2 (Occ.rev_hole_iff.1 e)
  refine ⟨(Fin n × Fin n × Fin n) ⊕ (Fin n × Fin n × Fin n), inferInstance,
    Sum.elim (fun x σ => if σ x.1 = .hole ∧ σ x.2.1 ≠ .hole ∧ σ x.2.2 ≠ .hole ∧ Near (pos x.1) (pos x.2.1) ∧ Near (pos x.2.1) (pos x.2.2) then h x.1 x.2.1 x.2.2 else 0)
      (fun x σ => if σ x.1 = .hole ∧ σ x.2.1 ≠ .hole ∧ σ x.2.2 ≠ .hole ∧ Near (pos x.1) (pos x.2.1) ∧ Near (pos x.2.1) (pos x.2.2) then - h x.1 x.2.1 x.2.2 else 0),
    Sum.elim (fun x => Equiv.swap x.1 x.2.1 * Equiv.swap x.2.1 x.2.2) (fun x => Equiv.swap x.1 x.2.2), ?_, ?_⟩
  · rintro (x | x) σ τ hh <;>
    simp only [Sum.elim_inl, Sum.elim_inr, hh x.1, hh x.2.1, hh x.2.2, ne_eq]
  · intro φ σ
    rw [key, Fintype.sum_sum_type, Fintype.sum_prod_type, Fintype.sum_prod_type]
    simp only [Fintype.sum_prod_type]
    rfl

theorem ham_kernel (h2 : (2 : K) ≠ 0) (I : Interactions K) (pos : Fin n → Pt) (B : BoolInteractions) (hB : B.bz = B.bij) :
    ExchKernel (hamEl I pos B) := by
  refine ((((((hop_kernel I pos).ite B.bt).add ((static_flip_kernel h2 I pos).ite B.bz))).add ((sd_kernel I pos).ite B.bSD)).add
    ((next_kernel I pos).ite B.btN)).add ((rep_kernel I pos).ite B.bV) |>.of_eq ?_
  intro σ τ
  unfold hamEl
  rw [← hB]
  cases B.bz <;> simp; ring

/-! ### Commutation -/

theorem count_comp (σ : Conf n) (e : Fin n ≃ Fin n) (o : Occ) : Conf.count (fun s => σ (e s)) o = σ.count o := by
  unfold Conf.count
  apply card_bij (fun s _ => e s)
  · intro s hs; simpa using hs
  · intro s _ t _ h; exact e.injective h
  · intro t ht
    exact ⟨e.symm t, by simpa using ht, by simp⟩

theorem electrons_comp (σ : Conf n) (e : Fin n ≃ Fin n) : Conf.electrons (fun s => σ (e s)) = σ.electrons := by
  unfold Conf.electrons
  rw [count_comp, count_comp]

theorem comp_exch' (σ : Conf n) (e : Fin n ≃ Fin n) (a b : Fin n) :
    (fun s => exch σ (e a) (e b) (e s)) = exch (fun s => σ (e s)) a b := (comp_exch σ e a b).symm

/-- Exchange kernels commute with the total spin. -/
theorem ExchKernel.comm {M : Conf n → Conf n → K} (hM : ExchKernel M) (φ : Conf n → K) (σ : Conf n) :
    (∑ τ, M σ τ * spin2 φ τ) = spin2 (fun ρ => ∑ τ, M ρ τ * φ τ) σ := by
  obtain ⟨X, _, k, π, hk, h⟩ := hM
  rw [h]
  unfold spin2
  simp only [h]
  simp only [mul_sum, sum_div, electrons_comp]
  have e1 : ∀ x, k x σ * (3 / 4 * (σ.electrons : K) * φ (fun s => σ (π x s)) +
      ∑ a, ∑ b, if a < b ∧ σ (π x a) ≠ .hole ∧ σ (π x b) ≠ .hole then φ (exch (fun s => σ (π x s)) a b) - φ (fun s => σ (π x s)) / 2 else 0)
      = 3 / 4 * (σ.electrons : K) * (k x σ * φ (fun s => σ (π x s))) + ∑ a, ∑ b, if a < b then
        (if σ a ≠ .hole ∧ σ b ≠ .hole then k x (exch σ a b) * φ (fun s => exch σ a b (π x s)) - k x σ * φ (fun s => σ (π x s)) / 2 else 0) else 0 := by
    intro x
    rw [mul_add]
    congr 1
    · ring
    · rw [← sum_lt_reindex (π x) (fun a b => if σ a ≠ .hole ∧ σ b ≠ .hole then k x (exch σ a b) * φ (fun s => exch σ a b (π x s)) - k x σ * φ (fun s => σ (π x s)) / 2 else 0)
        (fun a b => by rw [exch_comm]; simp only [and_comm])]
      rw [mul_sum]
      refine sum_congr rfl fun a _ => ?_
      rw [mul_sum]
      refine sum_congr rfl fun b _ => ?_
      by_cases hab : a < b
      · by_cases hh : σ (π x a) ≠ .hole ∧ σ (π x b) ≠ .hole
        · rw [if_pos hab, if_pos hh, if_pos ⟨hab, hh⟩, comp_exch', hk x (exch σ (π x a) (π x b)) σ (fun s => (exch_hole_iff hh.1 hh.2 s))]
          ring
        · rw [if_pos hab, if_neg hh, if_neg (fun g => hh g.2), mul_zero]
      · rw [if_neg hab, if_neg (fun g => hab g.1), mul_zero]
  rw [sum_congr rfl (fun x _ => e1 x), sum_add_distrib]
  congr 1
  rw [sum_comm]
  refine sum_congr rfl fun a _ => ?_
  rw [sum_comm]
  refine sum_congr rfl fun b _ => ?_
  by_cases hab : a < b
  · by_cases hh : σ a ≠ .hole ∧ σ b ≠ .hole
    · simp only [if_pos hab, if_pos hh, if_pos (show a < b ∧ σ a ≠ .hole ∧ σ b ≠ .hole from ⟨hab, hh⟩), sum_sub_distrib]
    · simp only [if_neg hh, if_neg (show ¬ (a < b ∧ σ a ≠ .hole ∧ σ b ≠ .hole) from fun g => hh g.2), ite_self, sum_const_zero]
  · simp only [if_neg hab, if_neg (show ¬ (a < b ∧ σ a ≠ .hole ∧ σ b ≠ .hole) from fun g => hab g.1), sum_const_zero]

end

end TJ
