/-
Counting of occupations with given contents on two sites, and diagonal elements of the Hamiltonian.
-/
import Verif.Lemmas.FreeHole
import Verif.Lemmas.Dynamic
import Verif.Lemmas.HamSym
import Verif.Lemmas.Sector
import Verif.Lemmas.SpinOp
import Verif.Lemmas.Connected

namespace TJ

open Finset

/-! ### Occupations of a sector -/

/-- All occupations with `h` holes and `b` down spins. -/
def sectorConfs (n h b : Nat) : Finset (Conf n) := univ.filter fun σ => σ.count .hole = h ∧ σ.count .down = b

theorem count_kinds {n : Nat} (σ : Conf n) : σ.count .hole + σ.count .down + σ.count .up = n := by
  unfold Conf.count
  have h := Finset.card_eq_sum_card_fiberwise (f := σ) (s := univ) (t := {Occ.hole, Occ.down, Occ.up})
    (by intro s _; cases σ s <;> simp)
  rw [sum_insert (by simp), sum_insert (by simp), sum_singleton, card_univ, Fintype.card_fin] at h
  omega

theorem count_nonhole {n : Nat} (σ : Conf n) : (univ.filter fun s => σ s ≠ .hole).card = n - σ.count .hole := by
  unfold Conf.count
  rw [filter_not, card_sdiff_of_subset (filter_subset _ _), card_univ, Fintype.card_fin]

theorem sectorConfs_comp {n h b : Nat} (e : Equiv.Perm (Fin n)) {σ : Conf n} :
    (fun s => σ (e s)) ∈ sectorConfs n h b ↔ σ ∈ sectorConfs n h b := by
  unfold sectorConfs
  simp only [mem_filter, mem_univ, true_and, count_comp σ e]

theorem exists_perm_pair {n : Nat} {a b a' b' : Fin n} (h : a ≠ b) (h' : a' ≠ b') : ∃ e : Equiv.Perm (Fin n), e a = a' ∧ e b = b' := by
  refine ⟨(Equiv.swap (Equiv.swap a a' b) b') * Equiv.swap a a', ?_, ?_⟩
  · rw [Equiv.Perm.mul_apply, Equiv.swap_apply_left]
    refine Equiv.swap_apply_of_ne_of_ne ?_ h'
    intro e
    apply h
    have := congrArg (Equiv.swap a a') e
    rw [Equiv.swap_apply_right, Equiv.swap_apply_self] at this
    exact this
  · rw [Equiv.Perm.mul_apply, Equiv.swap_apply_left]

/-- The number of occupations of the sector whose contents on two sites satisfy a condition does not depend on the sites. -/
theorem pair_count_eq (n h b : Nat) (P : Occ → Occ → Prop) [∀ x y, Decidable (P x y)] {s t s' t' : Fin n} (hne : s ≠ t) (hne' : s' ≠ t') :
    ((sectorConfs n h b).filter fun σ => P (σ s) (σ t)).card = ((sectorConfs n h b).filter fun σ => P (σ s') (σ t')).card := by
  obtain ⟨e, e1, e2⟩ := exists_perm_pair hne' hne
  refine card_bij (fun σ _ => fun x => σ (e x)) ?_ ?_ ?_
  · intro σ hσ
    rw [mem_filter] at hσ ⊢
    refine ⟨(sectorConfs_comp e).2 hσ.1, ?_⟩
    simp only [e1, e2]
    exact hσ.2
  · intro σ _ τ _ hs
    funext x
    have := congrFun hs (e.symm x)
    simpa using this
  · intro τ hτ
    rw [mem_filter] at hτ
    refine ⟨fun x => τ (e.symm x), ?_, by funext x; simp⟩
    rw [mem_filter]
    refine ⟨(sectorConfs_comp e.symm).2 hτ.1, ?_⟩
    rw [← e1, ← e2]
    simpa using hτ.2

theorem pair_count (n h b N : Nat) (P : Occ → Occ → Prop) [∀ x y, Decidable (P x y)]
    (hN : ∀ σ ∈ sectorConfs n h b, ((univ.filter fun p : Fin n × Fin n => p.1 ≠ p.2 ∧ P (σ p.1) (σ p.2)).card) = N)
    {s t : Fin n} (hne : s ≠ t) :
    n * (n - 1) * ((sectorConfs n h b).filter fun σ => P (σ s) (σ t)).card = (sectorConfs n h b).card * N := by
  have h1 : ∑ p ∈ univ.filter (fun p : Fin n × Fin n => p.1 ≠ p.2), ((sectorConfs n h b).filter fun σ => P (σ p.1) (σ p.2)).card =
      (univ.filter (fun p : Fin n × Fin n => p.1 ≠ p.2)).card * ((sectorConfs n h b).filter fun σ => P (σ s) (σ t)).card := by
    rw [Finset.sum_const_nat]
    intro p hp
    exact pair_count_eq n h b P (mem_filter.1 hp).2 hne
  have h2 : (univ.filter (fun p : Fin n × Fin n => p.1 ≠ p.2)).card = n * (n - 1) := by
    have := Finset.offDiag_card (univ : Finset (Fin n))
    rw [card_univ, Fintype.card_fin] at this
    rw [Nat.mul_sub, Nat.mul_one, ← this]
    congr 1
    ext p
    simp [mem_offDiag]
  have h3 : ∑ p ∈ univ.filter (fun p : Fin n × Fin n => p.1 ≠ p.2), ((sectorConfs n h b).filter fun σ => P (σ p.1) (σ p.2)).card =
      (sectorConfs n h b).card * N := by
    simp only [card_filter (fun σ : Conf n => _) (sectorConfs n h b)]
    rw [sum_comm, Finset.sum_const_nat]
    intro σ hσ
    rw [← hN σ hσ, card_filter, sum_filter]
    refine sum_congr rfl fun p _ => ?_
    by_cases q : p.1 ≠ p.2 <;> simp [q]
  rw [← h2, ← h1, h3]

/-! ### Numbers of ordered pairs of sites -/

theorem pairs_product {n : Nat} (σ : Conf n) (p q : Occ → Prop) [DecidablePred p] [DecidablePred q] (hpq : ∀ o, p o → ¬ q o) :
    (univ.filter fun x : Fin n × Fin n => x.1 ≠ x.2 ∧ p (σ x.1) ∧ q (σ x.2)).card =
      (univ.filter fun s => p (σ s)).card * (univ.filter fun s => q (σ s)).card := by
  rw [← card_product]
  congr 1
  ext x
  simp only [mem_filter, mem_univ, true_and, mem_product]
  constructor
  · exact fun h => h.2
  · intro h
    refine ⟨?_, h⟩
    intro e
    rw [e] at h
    exact hpq _ h.1 h.2

theorem pairs_same {n : Nat} (σ : Conf n) (o : Occ) :
    (univ.filter fun x : Fin n × Fin n => x.1 ≠ x.2 ∧ σ x.1 = o ∧ σ x.2 = o).card = σ.count o * (σ.count o - 1) := by
  unfold Conf.count
  rw [Nat.mul_sub, Nat.mul_one, ← offDiag_card]
  congr 1
  ext x
  simp only [mem_filter, mem_univ, true_and, mem_offDiag]
  tauto

theorem opposite_count (n h b : Nat) {s t : Fin n} (hne : s ≠ t) :
    n * (n - 1) * ((sectorConfs n h b).filter fun σ => σ s ≠ .hole ∧ σ t ≠ .hole ∧ σ s ≠ σ t).card =
      (sectorConfs n h b).card * (2 * (b * (n - h - b))) := by
  refine pair_count n h b _ (fun x y => x ≠ .hole ∧ y ≠ .hole ∧ x ≠ y) ?_ hne
  intro σ hσ
  unfold sectorConfs at hσ
  simp only [mem_filter, mem_univ, true_and] at hσ
  have hu : σ.count .up = n - h - b := by
    have := count_kinds σ
    omega
  have h1 := pairs_product σ (· = .down) (· = .up) (by rintro o rfl; simp)
  have h2 := pairs_product σ (· = .up) (· = .down) (by rintro o rfl; simp)
  have e1 : (univ.filter fun s => σ s = .down).card = b := hσ.2
  have e2 : (univ.filter fun s => σ s = .up).card = n - h - b := hu
  rw [e1, e2] at h1 h2
  have hsplit : (univ.filter fun x : Fin n × Fin n => x.1 ≠ x.2 ∧ σ x.1 ≠ .hole ∧ σ x.2 ≠ .hole ∧ σ x.1 ≠ σ x.2) =
      (univ.filter fun x : Fin n × Fin n => x.1 ≠ x.2 ∧ σ x.1 = .down ∧ σ x.2 = .up) ∪
      (univ.filter fun x : Fin n × Fin n => x.1 ≠ x.2 ∧ σ x.1 = .up ∧ σ x.2 = .down) := by
    ext x
    simp only [mem_filter, mem_univ, true_and, mem_union]
    cases σ x.1 <;> cases σ x.2 <;> simp
  rw [hsplit, card_union_of_disjoint, h1, h2]
  · ring
  · rw [disjoint_filter]
    rintro x _ ⟨_, g1, _⟩ ⟨_, g2, _⟩
    rw [g1] at g2
    cases g2

theorem holes_count (n h b : Nat) {s t : Fin n} (hne : s ≠ t) :
    n * (n - 1) * ((sectorConfs n h b).filter fun σ => σ s = .hole ∧ σ t = .hole).card = (sectorConfs n h b).card * (h * (h - 1)) := by
  refine pair_count n h b _ (fun x y => x = .hole ∧ y = .hole) ?_ hne
  intro σ hσ
  unfold sectorConfs at hσ
  simp only [mem_filter, mem_univ, true_and] at hσ
  rw [pairs_same, hσ.1]

theorem hop_count (n h b : Nat) {s t : Fin n} (hne : s ≠ t) :
    n * (n - 1) * ((sectorConfs n h b).filter fun σ => σ s = .hole ∧ σ t ≠ .hole).card = (sectorConfs n h b).card * (h * (n - h)) := by
  refine pair_count n h b _ (fun x y => x = .hole ∧ y ≠ .hole) ?_ hne
  intro σ hσ
  unfold sectorConfs at hσ
  simp only [mem_filter, mem_univ, true_and] at hσ
  rw [pairs_product σ (· = .hole) (· ≠ .hole) (by rintro o rfl; simp), count_nonhole, hσ.1]
  congr 1
  exact hσ.1

/-! ### Sums over the basis -/

theorem sum_basis {M : Type} [AddCommMonoid M] {c : Config} (hn : c.nholes + c.nbeta ≤ c.nsites) {dets : List (List Nat)}
    (hb : constructBasis c = .ok dets) (f : Conf c.nsites → M) :
    ∑ i : Fin dets.length, f (conf c dets[i]) = ∑ σ ∈ sectorConfs c.nsites c.nholes c.nbeta, f σ := by
  refine sum_bij (fun i _ => conf c dets[i]) ?_ ?_ ?_ (fun _ _ => rfl)
  · intro i _
    have hv := (canonical_getElem hb i i.2).1
    unfold sectorConfs
    rw [mem_filter]
    exact ⟨mem_univ _, count_conf_hole hn hv, count_conf_down hn hv⟩
  · intro i _ j _ h
    exact Fin.ext (conf_inj hb i.2 j.2 h)
  · intro σ hσ
    unfold sectorConfs at hσ
    simp only [mem_filter, mem_univ, true_and] at hσ
    set ρ : Nat → Occ := fun s => if hs : s < c.nsites then σ ⟨s, hs⟩ else .hole with hρ
    have hρσ : (fun s : Fin c.nsites => ρ s) = σ := by
      funext s
      rw [hρ]
      simp
    have c1 : cnt c.nsites ρ .hole = c.nholes := by rw [← count_eq_cnt, hρσ]; exact hσ.1
    have c2 : cnt c.nsites ρ .down = c.nbeta := by rw [← count_eq_cnt, hρσ]; exact hσ.2
    have hm := mem_of_idx_lt hb c1 c2
    obtain ⟨i, hi, e⟩ := List.getElem_of_mem hm
    refine ⟨⟨i, hi⟩, mem_univ _, ?_⟩
    funext s
    have he : dets[(⟨i, hi⟩ : Fin dets.length)] = detOf c.nsites ρ := e
    rw [he]
    unfold conf
    rw [occ_detOf c1 c2 s.2]
    exact congrFun hρσ s

theorem card_sectorConfs {c : Config} (hn : c.nholes + c.nbeta ≤ c.nsites) {dets : List (List Nat)} (hb : constructBasis c = .ok dets) :
    (sectorConfs c.nsites c.nholes c.nbeta).card = dets.length := by
  have := sum_basis hn hb (fun _ => (1 : Nat))
  simpa using this.symm

/-! ### Diagonal elements -/

section
variable {K : Type} [Field K] {n : Nat} (I : Interactions K) (pos : Fin n → Pt)

theorem exch_ne_self {σ : Conf n} {a b : Fin n} (h : σ a ≠ σ b) : σ ≠ exch σ a b := by
  intro e
  have := congrFun e a
  unfold exch at this
  rw [Equiv.swap_apply_left] at this
  exact h this

theorem hopEl_diag (σ : Conf n) : hopEl I pos σ σ = 0 := by
  unfold hopEl
  refine sum_eq_zero fun a _ => sum_eq_zero fun b _ => if_neg ?_
  rintro ⟨h1, h2, _, h3⟩
  exact exch_ne_self (by rw [h1]; exact Ne.symm h2) h3

theorem nextEl_diag (σ : Conf n) : nextEl I pos σ σ = 0 := by
  unfold nextEl
  refine sum_eq_zero fun a _ => sum_eq_zero fun b _ => if_neg ?_
  rintro ⟨h1, h2, _, h3⟩
  exact exch_ne_self (by rw [h1]; exact Ne.symm h2) h3

theorem flipEl_diag (σ : Conf n) : flipEl I pos σ σ = 0 := by
  unfold flipEl
  refine sum_eq_zero fun a _ => sum_eq_zero fun b _ => if_neg ?_
  rintro ⟨_, _, _, _, h2, h3⟩
  exact exch_ne_self h2 h3

theorem sdEl_diag (σ : Conf n) : sdEl I pos σ σ = 0 := by
  unfold sdEl
  refine sum_eq_zero fun a _ => sum_eq_zero fun m _ => sum_eq_zero fun b _ => ?_
  split_ifs with h h1 h2 h3 h4 <;> try rfl
  all_goals obtain ⟨q1, q2, q3, _, _⟩ := h
  all_goals first
    | (exfalso
       have := congrFun (by assumption : σ = shift3 σ a m b) a
       unfold shift3 at this
       rw [if_pos rfl, q1] at this
       exact q2 this.symm)
    | (exfalso
       refine exch_ne_self ?_ (by assumption : σ = exch σ a b)
       rw [q1, q3]
       cases hm : σ m
       · exact absurd hm q2
       · decide
       · decide)
    | simp

end

end TJ
