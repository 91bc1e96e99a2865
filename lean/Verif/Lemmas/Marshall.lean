/-
The sign rule, and products of singlets on pairs of sites of different colours.
-/
import Verif.Spec.Marshall
import Verif.Spec.Spin
import Verif.Lemmas.Connected
import Verif.Lemmas.SpinPos
import Verif.Props.HoppingSign

namespace TJ

open Finset

section
variable {n : Nat} (pos : Fin n → Pt)

theorem marshall_eq (σ : Conf n) : marshall pos σ = ∏ s, if σ s = .down then (colourSign (pos s) : ℝ) else 1 := by
  unfold marshall colourSign
  refine prod_congr rfl fun s _ => ?_
  by_cases h1 : σ s = .down <;> by_cases h2 : ((pos s).1 + (pos s).2) % 2 = 0 <;> simp [h1, h2]

theorem marshall_sq (σ : Conf n) : marshall pos σ * marshall pos σ = 1 := by
  unfold marshall
  rw [← prod_mul_distrib]
  refine prod_eq_one fun s _ => ?_
  split_ifs <;> norm_num

theorem marshall_exch_down {σ : Conf n} {a b : Fin n} (ha : σ a = .down) (hb : σ b ≠ .down) :
    marshall pos σ * marshall pos (exch σ a b) = colourSign (pos a) * colourSign (pos b) := by
  have e : marshall pos (exch σ a b) = ∏ s, if σ s = .down then (colourSign (pos (Equiv.swap a b s)) : ℝ) else 1 := by
    rw [marshall_eq, ← Equiv.prod_comp (Equiv.swap a b)]
    refine prod_congr rfl fun s _ => ?_
    unfold exch
    rw [Equiv.swap_apply_self]
  rw [e, marshall_eq, ← prod_mul_distrib]
  have t : ∀ s, ((if σ s = .down then colourSign (pos s) else 1 : ℝ) * if σ s = .down then colourSign (pos (Equiv.swap a b s)) else 1) =
      if s = a then colourSign (pos a) * colourSign (pos b) else 1 := by
    intro s
    by_cases h1 : s = a
    · subst h1
      rw [if_pos ha, if_pos ha, if_pos rfl, Equiv.swap_apply_left]
    · rw [if_neg h1]
      by_cases h2 : σ s = .down
      · have h3 : s ≠ b := fun h => hb (h ▸ h2)
        rw [if_pos h2, if_pos h2, Equiv.swap_apply_of_ne_of_ne h1 h3]
        exact colourSign_sq _
      · rw [if_neg h2, if_neg h2, one_mul]
  rw [prod_congr rfl fun s _ => t s, prod_ite_eq' univ a, if_pos (mem_univ _)]

/-- The exchange of opposite spins on sites of different colours changes the sign. -/
theorem marshall_exch {σ : Conf n} {a b : Fin n} (hc : (colourSign (pos a) : ℝ) * colourSign (pos b) = -1) (ha : σ a ≠ .hole)
    (hb : σ b ≠ .hole) (hab : σ a ≠ σ b) : marshall pos σ * marshall pos (exch σ a b) = -1 := by
  rcases h1 : σ a with _ | _ | _
  · exact absurd h1 ha
  all_goals
    rcases h2 : σ b with _ | _ | _
    · exact absurd h2 hb
    all_goals first
      | exact absurd (h1.trans h2.symm) hab
      | (rw [marshall_exch_down pos h1 (by rw [h2]; decide)]; exact hc)
      | (rw [exch_comm, marshall_exch_down pos h2 (by rw [h1]; decide), mul_comm]; exact hc)

/-! ### Matrix elements without holes -/

theorem hamEl_no_holes (I : Interactions ℝ) (B : BoolInteractions) (hb : B.bij = true) {σ τ : Conf n} (h0 : ∀ s, σ s ≠ .hole) (hne : τ ≠ σ) :
    hamEl I pos B σ τ = ∑ a, ∑ b, if a < b ∧ Near (pos a) (pos b) ∧ σ a ≠ σ b ∧ τ = exch σ a b then I.J / 2 else 0 := by
  have t1 : hopEl I pos σ τ = 0 := by unfold hopEl; simp [h0]
  have t2 : staticEl I pos σ τ = 0 := by unfold staticEl; rw [if_neg hne]
  have t3 : sdEl I pos σ τ = 0 := by unfold sdEl; simp [h0]
  have t4 : nextEl I pos σ τ = 0 := by unfold nextEl; simp [h0]
  have t5 : repEl I pos σ τ = 0 := by unfold repEl; rw [if_neg hne]
  have hJ : ∀ a b, Jeff I pos σ a b = I.J := by
    intro a b
    unfold Jeff HoleInline HoleNext
    simp [h0]
  unfold hamEl
  rw [t1, t2, t3, t4, t5, hb]
  simp only [ite_self, if_true, zero_add, add_zero]
  unfold flipEl
  refine sum_congr rfl fun a _ => sum_congr rfl fun b _ => ?_
  simp only [hJ, h0, ne_eq, not_false_eq_true, true_and]

theorem marshall_ham (I : Interactions ℝ) (B : BoolInteractions) (hb : B.bij = true) {σ τ : Conf n} (h0 : ∀ s, σ s ≠ .hole) (hne : τ ≠ σ) :
    marshall pos σ * marshall pos τ * hamEl I pos B σ τ =
      ∑ a, ∑ b, if a < b ∧ Near (pos a) (pos b) ∧ σ a ≠ σ b ∧ τ = exch σ a b then - (I.J / 2) else 0 := by
  rw [hamEl_no_holes pos I B hb h0 hne, mul_sum]
  refine sum_congr rfl fun a _ => ?_
  rw [mul_sum]
  refine sum_congr rfl fun b _ => ?_
  split_ifs with h
  · obtain ⟨_, h1, h2, rfl⟩ := h
    rw [marshall_exch pos (colourSign_near h1) (h0 a) (h0 b) h2]
    ring
  · rw [mul_zero]

theorem marshall_ham_nonpos (I : Interactions ℝ) (hJ : 0 < I.J) (B : BoolInteractions) (hb : B.bij = true) {σ τ : Conf n}
    (h0 : ∀ s, σ s ≠ .hole) (hne : τ ≠ σ) : marshall pos σ * marshall pos τ * hamEl I pos B σ τ ≤ 0 := by
  rw [marshall_ham pos I B hb h0 hne]
  refine sum_nonpos fun a _ => sum_nonpos fun b _ => ?_
  split_ifs
  · linarith
  · exact le_refl _

theorem marshall_ham_neg (I : Interactions ℝ) (hJ : 0 < I.J) (B : BoolInteractions) (hb : B.bij = true) {σ τ : Conf n}
    (h0 : ∀ s, σ s ≠ .hole) (h : ExchStep pos σ τ) : τ ≠ σ ∧ marshall pos σ * marshall pos τ * hamEl I pos B σ τ < 0 := by
  obtain ⟨a, b, h1, h2, rfl⟩ := h
  have hne : exch σ a b ≠ σ := by
    intro e
    have := congrFun e a
    rw [exch_left] at this
    exact h2 this.symm
  refine ⟨hne, ?_⟩
  rw [marshall_ham pos I B hb h0 hne]
  have hle : ∀ x y, (if x < y ∧ Near (pos x) (pos y) ∧ σ x ≠ σ y ∧ exch σ a b = exch σ x y then - (I.J / 2) else 0) ≤ 0 := by
    intro x y
    split_ifs
    · linarith
    · exact le_refl _
  have key : ∀ x y : Fin n, x < y → Near (pos x) (pos y) → σ x ≠ σ y → exch σ a b = exch σ x y →
      (∑ x, ∑ y, if x < y ∧ Near (pos x) (pos y) ∧ σ x ≠ σ y ∧ exch σ a b = exch σ x y then - (I.J / 2) else 0) < 0 := by
    intro x y q1 q2 q3 q4
    refine sum_neg' (fun x _ => sum_nonpos fun y _ => hle x y) ⟨x, mem_univ _, sum_neg' (fun y _ => hle x y) ⟨y, mem_univ _, ?_⟩⟩
    rw [if_pos ⟨q1, q2, q3, q4⟩]
    linarith
  rcases lt_trichotomy a b with q | q | q
  · exact key a b q h1 h2 rfl
  · exact absurd (congrArg σ q) h2
  · exact key b a q ((near_comm _ _).1 h1) (Ne.symm h2) (exch_comm _ _ _)

/-! ### Products of singlets -/

/-- The sites joined by `π` carry opposite spins, the others the spin `o`. -/
def VbCond (π : Fin n → Fin n) (o : Occ) (σ : Conf n) : Prop :=
  ∀ s, σ s ≠ .hole ∧ if π s = s then σ s = o else σ s ≠ σ (π s)

instance (π : Fin n → Fin n) (o : Occ) (σ : Conf n) : Decidable (VbCond π o σ) := by unfold VbCond; infer_instance

/-- The product of singlets on the pairs of `π`, the other spins are `o`. -/
def vb (π : Fin n → Fin n) (o : Occ) (σ : Conf n) : ℝ := if VbCond π o σ then marshall pos σ else 0

variable {pos} {π : Fin n → Fin n} {o : Occ}

theorem vbCond_exch (hπ : ∀ s, π (π s) = s) {σ : Conf n} {a : Fin n} (ha : π a ≠ a) (h : VbCond π o σ) : VbCond π o (exch σ a (π a)) := by
  intro s
  have hs := h s
  by_cases h1 : s = a
  · subst h1
    have h2 := h (π s)
    rw [hπ, if_neg (Ne.symm ha)] at h2
    rw [exch_left, exch_right, if_neg ha]
    exact h2
  by_cases h2 : s = π a
  · subst h2
    have h3 := h a
    rw [if_neg ha] at h3
    rw [exch_right, hπ, exch_left, if_neg (Ne.symm ha)]
    exact h3
  · have e1 : exch σ a (π a) s = σ s := by
      unfold exch
      rw [Equiv.swap_apply_of_ne_of_ne h1 h2]
    have e2 : exch σ a (π a) (π s) = σ (π s) := by
      unfold exch
      rw [Equiv.swap_apply_of_ne_of_ne]
      · intro e; exact h2 (by rw [← e, hπ])
      · intro e; exact h1 (by rw [← hπ s, e, hπ])
    rw [e1, e2]
    exact hs

/-- A product of singlets is left by no spin turned out of the direction `o`. -/
theorem vb_ladder (hπ : ∀ s, π (π s) = s) (hc : ∀ s, π s ≠ s → (colourSign (pos s) : ℝ) * colourSign (pos (π s)) = -1)
    (ho : o ≠ .hole) (τ : Conf n) : (∑ a, if τ a = o then vb pos π o (Function.update τ a o.rev) else 0) = 0 := by
  have hor : o.rev ≠ .hole := by cases o <;> simp_all [Occ.rev]
  have horo : o.rev ≠ o := by cases o <;> simp_all [Occ.rev]
  let f : Fin n → ℝ := fun a => if τ a = o then vb pos π o (Function.update τ a o.rev) else 0
  -- the partner must have the spin o
  have zero : ∀ a, (π a = a ∨ τ (π a) ≠ o) → f a = 0 := by
    intro a h
    show (if τ a = o then vb pos π o (Function.update τ a o.rev) else 0) = 0
    split_ifs with h1
    · unfold vb
      rw [if_neg]
      intro hv
      have h2 := hv a
      rw [Function.update_self] at h2
      by_cases h3 : π a = a
      · rw [if_pos h3] at h2
        exact horo h2.2
      · rw [if_neg h3, Function.update_of_ne h3] at h2
        have h4 := (hv (π a)).1
        rw [Function.update_of_ne h3] at h4
        rcases h with h | h
        · exact h3 h
        · have h5 := h2.2
          revert h h4 h5 ho
          cases o <;> cases τ (π a) <;> simp [Occ.rev]
    · rfl
  have anti : ∀ a, f (π a) = - f a := by
    intro a
    by_cases h1 : π a = a
    · rw [zero a (.inl h1), zero (π a) (.inl (by rw [hπ, h1])), neg_zero]
    by_cases h2 : τ (π a) = o
    · by_cases h3 : τ a = o
      · show (if τ (π a) = o then vb pos π o (Function.update τ (π a) o.rev) else 0) =
          - (if τ a = o then vb pos π o (Function.update τ a o.rev) else 0)
        rw [if_pos h2, if_pos h3]
        set u := Function.update τ a o.rev with hu
        have ua : u a = o.rev := by rw [hu, Function.update_self]
        have up : u (π a) = o := by rw [hu, Function.update_of_ne h1, h2]
        have hex : Function.update τ (π a) o.rev = exch u a (π a) := by
          funext s
          by_cases q1 : s = a
          · subst q1
            rw [Function.update_of_ne (Ne.symm h1), exch_left, up, h3]
          by_cases q2 : s = π a
          · subst q2
            rw [Function.update_self, exch_right, ua]
          · unfold exch
            rw [Function.update_of_ne q2, Equiv.swap_apply_of_ne_of_ne q1 q2, hu, Function.update_of_ne q1]
        rw [hex]
        have hiff : VbCond π o (exch u a (π a)) ↔ VbCond π o u := by
          constructor
          · intro h
            have := vbCond_exch hπ h1 h
            rwa [exch_exch] at this
          · exact vbCond_exch hπ h1
        unfold vb
        simp only [hiff]
        split_ifs with hv
        · have h5 := marshall_exch pos (σ := u) (hc a h1) (by rw [ua]; exact hor) (by rw [up]; exact ho) (by rw [ua, up]; exact horo)
          have h6 := marshall_sq pos u
          have : marshall pos (exch u a (π a)) = marshall pos u * marshall pos u * marshall pos (exch u a (π a)) := by rw [h6, one_mul]
          rw [this, mul_assoc, h5]; ring
        · rw [neg_zero]
      · have e1 : f (π a) = 0 := zero (π a) (.inr (by rw [hπ]; exact h3))
        have e2 : f a = 0 := if_neg h3
        rw [e1, e2, neg_zero]
    · have e1 : f (π a) = 0 := if_neg h2
      rw [e1, zero a (.inr h2), neg_zero]
  let p : Fin n ≃ Fin n := ⟨π, π, hπ, hπ⟩
  have h1 : ∑ a, f a = ∑ a, f (π a) := (Equiv.sum_comp p f).symm
  rw [sum_congr rfl fun a _ => anti a, sum_neg_distrib] at h1
  have : ∑ a, f a = 0 := by linarith
  exact this

/-- A state that is left by no spin turned out of the direction `o` has the lowest total spin of its sector. -/
theorem spin2_extremal (ho : o ≠ .hole) (φ : Conf n → ℝ) (h : ∀ τ, (∑ a, if τ a = o then φ (Function.update τ a o.rev) else 0) = 0) (σ : Conf n) :
    spin2 φ σ = ((σ.count o : ℝ) - σ.count o.rev) / 2 * (((σ.count o : ℝ) - σ.count o.rev) / 2 + 1) * φ σ := by
  have horo : o.rev ≠ o := by cases o <;> simp_all [Occ.rev]
  have h1 : ∀ a, σ a = o.rev → (∑ c, if σ c = o then φ (exch σ a c) else 0) = - φ σ := by
    intro a ha
    have := h (Function.update σ a o)
    rw [← add_sum_erase univ _ (mem_univ a), Function.update_self, if_pos rfl, Function.update_idem, ← ha, Function.update_eq_self] at this
    rw [← add_sum_erase univ _ (mem_univ a), if_neg (by rw [ha]; exact horo), zero_add]
    have e : (∑ c ∈ univ.erase a, if σ c = o then φ (exch σ a c) else 0) =
        ∑ x ∈ univ.erase a, if Function.update σ a o x = o then φ (Function.update (Function.update σ a o) x (σ a)) else 0 := by
      refine sum_congr rfl fun c hc => ?_
      have hca : c ≠ a := (mem_erase.1 hc).1
      rw [Function.update_of_ne hca]
      split_ifs with h2
      · congr 1
        funext s
        unfold exch
        by_cases q1 : s = a
        · subst q1
          rw [Equiv.swap_apply_left, Function.update_of_ne (Ne.symm hca), Function.update_self, h2]
        by_cases q2 : s = c
        · subst q2
          rw [Equiv.swap_apply_right, Function.update_self]
        · rw [Equiv.swap_apply_of_ne_of_ne q1 q2, Function.update_of_ne q2, Function.update_of_ne q1]
      · rfl
    rw [e]
    linarith
  have h2 : (∑ a, ∑ b, if σ a = o.rev then (if σ b = o then φ (exch σ a b) else 0) else 0) = - ((σ.count o.rev : ℝ) * φ σ) := by
    rw [← sum_count, ← sum_neg_distrib]
    refine sum_congr rfl fun a _ => ?_
    split_ifs with ha
    · rw [h1 a ha]
    · simp
  have h3 : (∑ a, ∑ b, if a < b ∧ σ a ≠ .hole ∧ σ b ≠ .hole ∧ σ a ≠ σ b then φ (exch σ a b) else 0) =
      ∑ a, ∑ b, if σ a = o.rev then (if σ b = o then φ (exch σ a b) else 0) else 0 := by
    have e3 : ∀ a b : Fin n, (if σ a = o.rev then (if σ b = o then φ (exch σ a b) else 0) else 0) =
        (if a < b then (if σ a = o.rev then (if σ b = o then φ (exch σ a b) else 0) else 0) else 0) +
        (if b < a then (if σ a = o.rev then (if σ b = o then φ (exch σ a b) else 0) else 0) else 0) := by
      intro a b
      rcases lt_trichotomy a b with h | h | h
      · simp [h, not_lt.2 h.le]
      · subst h
        by_cases q : σ a = o.rev
        · simp [q, horo]
        · simp [q]
      · simp [h, not_lt.2 h.le]
    rw [sum_congr rfl fun a _ => sum_congr rfl fun b _ => e3 a b]
    simp only [sum_add_distrib]
    rw [sum_comm (f := fun a b => if b < a then (if σ a = o.rev then (if σ b = o then φ (exch σ a b) else 0) else 0) else 0), ← sum_add_distrib]
    refine sum_congr rfl fun a _ => ?_
    rw [← sum_add_distrib]
    refine sum_congr rfl fun b _ => ?_
    by_cases hab : a < b
    · rw [exch_comm σ b a]
      generalize φ (exch σ a b) = x
      simp only [if_pos hab, hab, true_and]
      revert ho
      cases o <;> cases σ a <;> cases σ b <;> simp [Occ.rev]
    · simp [hab]
  rw [spin2_eq two_ne_zero, h3, h2]
  have he : (σ.electrons : ℝ) = σ.count o + σ.count o.rev := by
    unfold Conf.electrons
    revert ho
    cases o <;> simp [Occ.rev, add_comm]
  have hd : ((σ.count .up : ℝ) - σ.count .down) ^ 2 = ((σ.count o : ℝ) - σ.count o.rev) ^ 2 := by
    revert ho
    cases o <;> simp [Occ.rev] <;> ring
  rw [he, hd]
  ring

end

end TJ
