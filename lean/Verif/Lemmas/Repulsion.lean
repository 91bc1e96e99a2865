/-
Hole repulsion: normal form.
-/
import Verif.Lemmas.Terms
import Verif.Props.Linear
import Mathlib.Algebra.BigOperators.Ring.Finset

namespace TJ

open Finset

section
variable {E : Env} {c : Config} {pos : Nat → Pt}

theorem repulsionLoop_eq (g : GeomLattice E c pos) (hf : c.Full) : ∀ l : List Nat, l.Nodup → (∀ s ∈ l, s < c.nsites) →
    repulsionLoop E c l = .ok (pairCount (fun a b => decide (Near (pos a) (pos b))) l,
      pairCount (fun a b => decide (Diagonal (pos a) (pos b))) l)
  | [], _, _ => rfl
  | [x], _, _ => rfl
  | a :: b :: rest, hl, hs => by
    have hl' := List.nodup_cons.1 hl
    have ha := hs a (by simp)
    have ih := repulsionLoop_eq g hf (b :: rest) hl'.2 (fun s h => hs s (List.mem_cons_of_mem _ h))
    obtain ⟨dg, e2, n2, m2⟩ := C22_diagonal E c pos g hf a ha
    have hlen : ∀ (X : List Nat) (R : Nat → Prop) [DecidablePred R], (∀ s, s ∈ X ↔ s < c.nsites ∧ R s) → ¬ R a →
        (E.inter X (a :: b :: rest)).length = ((b :: rest).filter (fun y => decide (R y))).length := by
      intro X R _ hX hRa
      apply List.Perm.length_eq
      refine (List.perm_ext_iff_of_nodup (E.nodup_inter _ _) (hl'.2.filter _)).2 ?_
      intro s
      rw [E.mem_inter, hX, List.mem_filter, List.mem_cons (a := s) (b := a)]
      constructor
      · rintro ⟨⟨_, h2⟩, rfl | h3⟩
        · exact absurd h2 hRa
        · exact ⟨h3, by simpa using h2⟩
      · rintro ⟨h1, h2⟩
        exact ⟨⟨hs s (List.mem_cons_of_mem _ h1), by simpa using h2⟩, Or.inr h1⟩
    unfold repulsionLoop
    refine bind_ok (nbl_spec E.toSetSem c.bond c.restrArg ha).1 (bind_ok e2 (bind_ok ih ?_))
    rw [hlen (nbl E.toSetSem c.bond c.restrArg a) (fun s => Near (pos a) (pos s)) (fun s => by
        rw [mem_nbl_full hf ha]
        constructor
        · rintro ⟨h1, h2⟩; exact ⟨h1, (g.bond_iff ha h1).1 h2⟩
        · rintro ⟨h1, h2⟩; exact ⟨h1, (g.bond_iff ha h1).2 h2⟩) (not_near_self _),
      hlen dg (fun s => Diagonal (pos a) (pos s)) m2 (by unfold Diagonal; omega)]
    rfl

/-- Pairs counted in a list of sites, as a sum over sites. -/
theorem pairCount_sum {K : Type} [Field K] {n : Nat} (R : Nat → Nat → Bool) (hR : ∀ a b, R a b = R b a) {l : List Nat}
    (hl : l.Nodup) {Q : Fin n → Prop} [DecidablePred Q] (hmem : ∀ x, x ∈ l ↔ ∃ y : Fin n, y.val = x ∧ Q y) :
    (pairCount R l : K) = ∑ a : Fin n, ∑ b : Fin n, if a < b ∧ Q a ∧ Q b then (if R a b = true then 1 else 0) else 0 := by
  rw [pairCount_eq R hR l hl, sum_sites hl hmem]
  refine sum_congr rfl (fun a _ => ?_)
  by_cases ha : Q a
  · rw [if_pos ha, sum_sites hl hmem]
    refine sum_congr rfl (fun b _ => ?_)
    by_cases h1 : a < b <;> by_cases h2 : Q b <;> by_cases h3 : R a b = true <;> simp [h1, h2, h3, ha]
  · rw [if_neg ha]
    symm
    apply sum_eq_zero
    intro b _
    rw [if_neg (fun h => ha h.2.1)]

theorem computeRepulsion_eq {K : Type} [Field K] (I : Interactions K) (g : GeomLattice E c pos) (hf : c.Full)
    {det : List Nat} (hv : ValidDet c.nsites det) :
    computeRepulsion E c I det = .ok (∑ a : Fin c.nsites, ∑ b : Fin c.nsites,
      if a < b ∧ occC c det a = .hole ∧ occC c det b = .hole
      then (if Near (pos a) (pos b) then I.VNN else 0) + (if Diagonal (pos a) (pos b) then I.VNNNper else 0) else 0) := by
  obtain ⟨hs, e0, hnd, hmem⟩ := getIndexesOf_zero E.toSetSem hf hv
  have hmem' : ∀ x, x ∈ hs ↔ ∃ y : Fin c.nsites, y.val = x ∧ occC c det y = .hole := by
    intro x
    rw [hmem]
    constructor
    · rintro ⟨h1, h2⟩; exact ⟨⟨x, h1⟩, rfl, h2⟩
    · rintro ⟨y, rfl, h⟩; exact ⟨y.2, h⟩
  have hval : (pairCount (fun a b => decide (Near (pos a) (pos b))) hs : K) * I.VNN +
      (pairCount (fun a b => decide (Diagonal (pos a) (pos b))) hs : K) * I.VNNNper =
      ∑ a : Fin c.nsites, ∑ b : Fin c.nsites,
      if a < b ∧ occC c det a = .hole ∧ occC c det b = .hole
      then (if Near (pos a) (pos b) then I.VNN else 0) + (if Diagonal (pos a) (pos b) then I.VNNNper else 0) else 0 := by
    rw [pairCount_sum (n := c.nsites) _ (fun a b => by simp only [near_comm (pos a)]) hnd hmem',
      pairCount_sum (n := c.nsites) _ (fun a b => by simp only [diagonal_comm (pos a)]) hnd hmem',
      sum_mul, sum_mul, ← sum_add_distrib]
    refine sum_congr rfl (fun a _ => ?_)
    rw [sum_mul, sum_mul, ← sum_add_distrib]
    refine sum_congr rfl (fun b _ => ?_)
    simp only [decide_eq_true_eq]
    split_ifs <;> simp
  unfold computeRepulsion
  split_ifs with h
  · refine bind_ok e0 (bind_ok (repulsionLoop_eq g hf hs hnd (fun s h => ((hmem s).1 h).1)) ?_)
    simp only
    rw [hval]
    rfl
  · congr 1
    rw [← hval]
    have hlen : hs.length ≤ 1 := by
      have hsub : hs.Subperm (det.take c.nholes) := hnd.subperm (fun s hs => occ_hole_iff.1 ((hmem s).1 hs).2)
      have := hsub.length_le
      rw [List.length_take] at this
      omega
    match hs, hlen with
    | [], _ => simp [pairCount]
    | [x], _ => simp [pairCount]
    | x :: y :: l, h => simp at h

end

end TJ
