/-
The fermionic t-J Hamiltonian in the numbering of the modes site by site.
-/
import Verif.Lemmas.Fermi
import Verif.Lemmas.FarConfs

namespace TJ

open Finset Matrix

/-- The modes numbered site by site. -/
def siteOrder {n : Nat} (m : Mode n) : Nat := 2 * m.1 + if m.2 then 1 else 0

theorem siteOrder_inj {n : Nat} : Function.Injective (siteOrder (n := n)) := by
  rintro ⟨a, s⟩ ⟨b, u⟩ h
  unfold siteOrder at h
  cases s <;> cases u <;> simp at h ⊢ <;> omega

section
variable {n : Nat}

theorem mem_fock {σ : Conf n} {a : Fin n} {s : Bool} : (a, s) ∈ fock σ ↔ σ a = spinOcc s := by
  unfold fock
  rw [mem_filter]
  exact ⟨fun h => h.2, fun h => ⟨mem_univ _, h⟩⟩

theorem spinOcc_ne (s : Bool) : spinOcc s ≠ .hole := by cases s <;> simp [spinOcc]

theorem spinOcc_inj {s u : Bool} (h : spinOcc s = spinOcc u) : s = u := by
  revert h
  cases s <;> cases u <;> simp [spinOcc]

theorem exists_spin {o : Occ} (h : o ≠ .hole) : ∃ s, o = spinOcc s := by
  cases o
  · exact absurd rfl h
  · exact ⟨false, rfl⟩
  · exact ⟨true, rfl⟩

theorem fock_inj {σ τ : Conf n} (h : fock σ = fock τ) : σ = τ := by
  have h1 : ∀ a s, σ a = spinOcc s ↔ τ a = spinOcc s := by
    intro a s
    rw [← mem_fock, ← mem_fock, h]
  funext a
  by_cases h2 : σ a = .hole
  · by_contra h3
    rw [h2] at h3
    obtain ⟨s, hs⟩ := exists_spin (Ne.symm h3)
    have := (h1 a s).2 hs
    rw [h2] at this
    exact spinOcc_ne s this.symm
  · obtain ⟨s, hs⟩ := exists_spin h2
    rw [hs, (h1 a s).1 hs]

theorem fock_erase {σ : Conf n} {a : Fin n} {s : Bool} (h : σ a = spinOcc s) : (fock σ).erase (a, s) = fock (Function.update σ a .hole) := by
  ext ⟨b, u⟩
  rw [mem_erase, mem_fock, mem_fock]
  by_cases hb : b = a
  · subst hb
    rw [Function.update_self, h]
    refine ⟨fun h => absurd (spinOcc_inj h.2) (fun h' => h.1 (by rw [h'])), fun h => absurd h.symm (spinOcc_ne u)⟩
  · rw [Function.update_of_ne hb]
    exact ⟨fun h => h.2, fun h => ⟨fun e => hb (Prod.ext_iff.1 e).1, h⟩⟩

theorem fock_insert {σ : Conf n} {a : Fin n} (s : Bool) (h : σ a = .hole) : insert (a, s) (fock σ) = fock (Function.update σ a (spinOcc s)) := by
  ext ⟨b, u⟩
  rw [mem_insert, mem_fock, mem_fock]
  by_cases hb : b = a
  · subst hb
    rw [Function.update_self, h]
    refine ⟨fun h => ?_, fun h => Or.inl (by rw [spinOcc_inj h])⟩
    rcases h with h | h
    · have h : u = s := (Prod.ext_iff.1 h).2
      rw [h]
    · exact absurd h.symm (spinOcc_ne u)
  · rw [Function.update_of_ne hb]
    exact ⟨fun h => h.resolve_left (fun e => hb (Prod.ext_iff.1 e).1), fun h => Or.inr h⟩

/-- The number of electrons on the sites before `a`. -/
def left (σ : Conf n) (a : Fin n) : Nat := (univ.filter fun z => z < a ∧ σ z ≠ .hole).card

theorem before_fock {σ : Conf n} {a : Fin n} {s : Bool} (h : σ a = spinOcc s ∨ σ a = .hole) : before siteOrder (a, s) (fock σ) = left σ a := by
  unfold before left
  rw [← card_image_of_injOn (f := Prod.fst) (s := (fock σ).filter _)]
  · congr 1
    ext z
    simp only [mem_image, mem_filter, mem_univ, true_and]
    constructor
    · rintro ⟨⟨z', u⟩, ⟨h1, h2⟩, rfl⟩
      rw [mem_fock] at h1
      refine ⟨?_, by show σ z' ≠ _; rw [h1]; exact spinOcc_ne u⟩
      show z' < a
      unfold siteOrder at h2
      by_contra h3
      have h4 : z' = a := by
        apply Fin.ext
        have h3 : a.1 ≤ z'.1 := not_lt.1 h3
        revert h2
        cases u <;> cases s <;> simp <;> omega
      subst h4
      rcases h with h | h
      · rw [h] at h1
        rw [spinOcc_inj h1] at h2
        exact lt_irrefl _ h2
      · rw [h] at h1
        exact spinOcc_ne u h1.symm
    · rintro ⟨h1, h2⟩
      obtain ⟨u, hu⟩ := exists_spin h2
      refine ⟨(z, u), ⟨mem_fock.2 hu, ?_⟩, rfl⟩
      unfold siteOrder
      have h1 : z.1 < a.1 := h1
      cases u <;> cases s <;> simp <;> omega
  · rintro ⟨z, u⟩ h1 ⟨z', u'⟩ h2 rfl
    have h1 := mem_fock.1 (mem_filter.1 h1).1
    have h2 := mem_fock.1 (mem_filter.1 h2).1
    rw [h1] at h2
    rw [spinOcc_inj h2]

variable {K : Type} [Field K]

theorem annih_fock (σ : Conf n) (a : Fin n) (s : Bool) : annih K siteOrder (a, s) *ᵥ ket (fock σ) =
    if σ a = spinOcc s then ((-1) ^ left σ a : K) • ket (fock (Function.update σ a .hole)) else 0 := by
  rw [annih_ket]
  by_cases h : σ a = spinOcc s
  · rw [if_pos (mem_fock.2 h), if_pos h, before_fock (Or.inl h), fock_erase h]
  · rw [if_neg (fun h' => h (mem_fock.1 h')), if_neg h]

theorem create_fock {σ : Conf n} {a : Fin n} (s : Bool) (h : σ a = .hole) : create K siteOrder (a, s) *ᵥ ket (fock σ) =
    ((-1) ^ left σ a : K) • ket (fock (Function.update σ a (spinOcc s))) := by
  rw [create_ket, if_neg, before_fock (Or.inr h), fock_insert s h]
  rw [mem_fock, h]
  exact fun h => spinOcc_ne s h.symm

/-- An electron put on an occupied site leads to double occupation. -/
theorem create_occupied {σ : Conf n} {a : Fin n} (s : Bool) (h : σ a ≠ .hole) (τ : Conf n) :
    (create K siteOrder (a, s) *ᵥ ket (fock σ)) (fock τ) = 0 := by
  rw [create_ket]
  split_ifs with h1
  · rfl
  · rw [Pi.smul_apply, ket_apply, if_neg, smul_zero]
    intro h2
    obtain ⟨u, hu⟩ := exists_spin h
    have h3 : (a, s) ∈ fock τ := by rw [h2]; exact mem_insert_self _ _
    have h4 : (a, u) ∈ fock τ := by rw [h2]; exact mem_insert_of_mem (mem_fock.2 hu)
    rw [mem_fock] at h3 h4
    rw [h3] at h4
    rw [spinOcc_inj h4] at h1
    exact h1 (mem_fock.2 hu)

theorem left_update (σ : Conf n) (a : Fin n) (o : Occ) : left (Function.update σ a o) a = left σ a := by
  unfold left
  congr 1
  ext z
  simp only [mem_filter, mem_univ, true_and]
  refine and_congr_right fun h => ?_
  rw [Function.update_of_ne h.ne]

theorem ladder_fock (σ : Conf n) (a : Fin n) (s u : Bool) : ladder (K := K) siteOrder a s u *ᵥ ket (fock σ) =
    if σ a = spinOcc s then ket (fock (Function.update σ a (spinOcc u))) else 0 := by
  unfold ladder
  rw [← mulVec_mulVec, annih_fock]
  by_cases h : σ a = spinOcc s
  · rw [if_pos h, if_pos h, mulVec_smul, create_fock u (Function.update_self _ _ _), smul_smul, left_update, neg_one_sq_pow, one_smul,
      Function.update_idem]
  · rw [if_neg h, if_neg h, mulVec_zero]

theorem number_fock (σ : Conf n) (a : Fin n) (s : Bool) : number (K := K) siteOrder a s *ᵥ ket (fock σ) =
    (if σ a = spinOcc s then 1 else 0 : K) • ket (fock σ) := by
  have h := ladder_fock (K := K) σ a s s
  have e : ladder (K := K) siteOrder a s s = number siteOrder a s := rfl
  rw [e] at h
  rw [h]
  split_ifs with h1
  · rw [one_smul, ← h1, Function.update_eq_self]
  · rw [zero_smul]

theorem projection_fock (σ : Conf n) (a : Fin n) : projection (K := K) siteOrder a *ᵥ ket (fock σ) = ((σ a).val : K) • ket (fock σ) := by
  unfold projection
  rw [smul_mulVec, sub_mulVec, number_fock, number_fock, ← sub_smul, smul_smul]
  congr 1
  cases σ a <;> simp [spinOcc, Occ.val]
  ring

theorem electrons_fock (σ : Conf n) (a : Fin n) : electrons (K := K) siteOrder a *ᵥ ket (fock σ) =
    (if σ a = .hole then 0 else 1 : K) • ket (fock σ) := by
  unfold electrons
  rw [add_mulVec, number_fock, number_fock, ← add_smul]
  congr 1
  cases σ a <;> simp [spinOcc]

theorem ising_fock (σ τ : Conf n) (a b : Fin n) : (isingOp siteOrder a b : Matrix _ _ K) (fock τ) (fock σ) =
    if τ = σ then (if σ a ≠ .hole ∧ σ b ≠ .hole then (σ a).val * (σ b).val - 1 / 4 else 0) else 0 := by
  refine (mulVec_ket _ _ _).symm.trans ?_
  unfold isingOp
  rw [sub_mulVec, smul_mulVec, ← mulVec_mulVec, ← mulVec_mulVec, projection_fock, electrons_fock, mulVec_smul, mulVec_smul, projection_fock,
    electrons_fock, smul_smul, smul_smul, smul_smul, ← sub_smul, Pi.smul_apply, ket_apply, smul_eq_mul]
  by_cases h : τ = σ
  · rw [if_pos (congrArg fock h), if_pos h, mul_one]
    cases h1 : σ a <;> cases h2 : σ b <;> simp [Occ.val, mul_comm]
  · rw [if_neg (fun h' => h (fock_inj h')), if_neg h, mul_zero]

theorem exch_update {σ : Conf n} {a b : Fin n} (hab : a ≠ b) :
    exch σ a b = Function.update (Function.update σ b (σ a)) a (σ b) := by
  funext z
  by_cases h1 : z = a
  · subst h1
    rw [exch_left, Function.update_self]
  · rw [Function.update_of_ne h1]
    by_cases h2 : z = b
    · subst h2
      rw [exch_right, Function.update_self]
    · rw [Function.update_of_ne h2, exch_other σ h1 h2]

theorem ladders_fock (σ : Conf n) {a b : Fin n} (hab : a ≠ b) (s : Bool) :
    (ladder (K := K) siteOrder a s (!s) * ladder siteOrder b (!s) s) *ᵥ ket (fock σ) =
      if σ a = spinOcc s ∧ σ b = spinOcc (!s) then ket (fock (exch σ a b)) else 0 := by
  rw [← mulVec_mulVec, ladder_fock]
  by_cases h : σ b = spinOcc (!s)
  · rw [if_pos h, ladder_fock, Function.update_of_ne hab]
    by_cases h' : σ a = spinOcc s
    · rw [if_pos h', if_pos ⟨h', h⟩, exch_update hab, h, h']
    · rw [if_neg h', if_neg (fun h2 => h' h2.1)]
  · rw [if_neg h, if_neg (fun h2 => h h2.2), mulVec_zero]

theorem flip_fock (σ τ : Conf n) {a b : Fin n} (hab : a ≠ b) : (flipOp siteOrder a b : Matrix _ _ K) (fock τ) (fock σ) =
    if σ a ≠ .hole ∧ σ b ≠ .hole ∧ σ a ≠ σ b ∧ τ = exch σ a b then 1 / 2 else 0 := by
  refine (mulVec_ket _ _ _).symm.trans ?_
  unfold flipOp
  have h1 := ladders_fock (K := K) σ hab false
  have h2 := ladders_fock (K := K) σ hab true
  rw [Bool.not_false] at h1
  rw [Bool.not_true] at h2
  rw [smul_mulVec, add_mulVec, h1, h2, Pi.smul_apply, Pi.add_apply, smul_eq_mul]
  have h3 : (ket (fock (exch σ a b)) : _ → K) (fock τ) = if τ = exch σ a b then 1 else 0 := by
    rw [ket_apply]
    exact if_congr ⟨fock_inj, congrArg fock⟩ rfl rfl
  have h4 : ∀ p : Prop, [Decidable p] → (if p then ket (fock (exch σ a b)) else 0 : _ → K) (fock τ) = if p then (if τ = exch σ a b then 1 else 0) else 0 := by
    intro p _
    by_cases hp : p
    · rw [if_pos hp, if_pos hp, h3]
    · rw [if_neg hp, if_neg hp]
      rfl
  rw [h4, h4]
  by_cases h : τ = exch σ a b
  · simp only [h, if_true, and_true]
    cases h5 : σ a <;> cases h6 : σ b <;> simp [spinOcc]
  · have e : (if τ = exch σ a b then (1 : K) else 0) = 0 := if_neg h
    have e' : ¬ (σ a ≠ .hole ∧ σ b ≠ .hole ∧ σ a ≠ σ b ∧ τ = exch σ a b) := fun h' => h h'.2.2.2
    rw [e, if_neg e', ite_self, ite_self, add_zero, mul_zero]

/-- The sign of an electron that goes from `b` to `a`: each electron on a site in between changes it. -/
def jumpSign (K : Type) [Field K] (σ : Conf n) (a b : Fin n) : K :=
  ∏ z, if ((a < z ∧ z < b) ∨ (b < z ∧ z < a)) ∧ σ z ≠ .hole then -1 else 1

theorem sign_left (σ : Conf n) (a : Fin n) : ((-1) ^ left σ a : K) = ∏ z, if z < a ∧ σ z ≠ .hole then -1 else 1 := by
  unfold left
  rw [prod_ite, prod_const_one, mul_one, prod_const]

theorem jump_left {σ : Conf n} {a b : Fin n} (ha : σ a = .hole) (hb : σ b ≠ .hole) :
    ((-1) ^ left σ b * (-1) ^ left (Function.update σ b .hole) a : K) = jumpSign K σ a b := by
  rw [sign_left, sign_left, ← prod_mul_distrib]
  refine prod_congr rfl fun z _ => ?_
  by_cases h1 : z = b
  · subst h1
    simp
  · rw [Function.update_of_ne h1]
    by_cases h2 : σ z = .hole
    · simp [h2]
    · have h3 : z ≠ a := fun h => h2 (h ▸ ha)
      rcases lt_or_gt_of_ne h1 with h1 | h1 <;> rcases lt_or_gt_of_ne h3 with h3 | h3 <;>
        simp [h1, h2, h3, not_lt.2 h1.le, not_lt.2 h3.le]

theorem transfer_fock (σ τ : Conf n) {a b : Fin n} (hab : a ≠ b) : (transfer siteOrder b a : Matrix _ _ K) (fock τ) (fock σ) =
    if σ a = .hole ∧ σ b ≠ .hole ∧ τ = exch σ a b then jumpSign K σ a b else 0 := by
  refine (mulVec_ket _ _ _).symm.trans ?_
  unfold transfer
  rw [sum_mulVec, Finset.sum_apply]
  have h1 : ∀ s, ((create K siteOrder (a, s) * annih K siteOrder (b, s)) *ᵥ ket (fock σ)) (fock τ) =
      if σ b = spinOcc s then (if σ a = .hole ∧ τ = exch σ a b then jumpSign K σ a b else 0) else 0 := by
    intro s
    rw [← mulVec_mulVec, annih_fock]
    by_cases hs : σ b = spinOcc s
    · rw [if_pos hs, if_pos hs, mulVec_smul]
      by_cases ha : σ a = .hole
      · have hb : σ b ≠ .hole := by rw [hs]; exact spinOcc_ne s
        have ha' : Function.update σ b .hole a = .hole := by rw [Function.update_of_ne hab, ha]
        rw [create_fock s ha', smul_smul, jump_left ha hb, Pi.smul_apply, ket_apply, smul_eq_mul, mul_ite, mul_one, mul_zero]
        refine if_congr ?_ rfl rfl
        have e : Function.update (Function.update σ b .hole) a (spinOcc s) = exch σ a b := by rw [exch_update hab, ha, hs]
        rw [e]
        exact ⟨fun h => ⟨ha, fock_inj h⟩, fun h => congrArg fock h.2⟩
      · rw [if_neg (fun h => ha h.1), Pi.smul_apply, create_occupied s (by rw [Function.update_of_ne hab]; exact ha), smul_zero]
    · rw [if_neg hs, if_neg hs, mulVec_zero]
      rfl
  rw [sum_congr rfl fun s _ => h1 s]
  by_cases hb : σ b = .hole
  · have e : ¬ (σ a = .hole ∧ σ b ≠ .hole ∧ τ = exch σ a b) := fun h => h.2.1 hb
    rw [if_neg e]
    refine sum_eq_zero fun s _ => ?_
    rw [if_neg]
    rw [hb]
    exact fun h => spinOcc_ne s h.symm
  · obtain ⟨u, hu⟩ := exists_spin hb
    rw [sum_eq_single u, if_pos hu]
    · exact if_congr ⟨fun h => ⟨h.1, hb, h.2⟩, fun h => ⟨h.1, h.2.2⟩⟩ rfl rfl
    · intro s _ hs
      rw [if_neg]
      rw [hu]
      exact fun h => hs (spinOcc_inj h).symm
    · exact fun h => absurd (mem_univ _) h

end

end TJ
