/-
Number of occupations connected with an occupation, and their sum over a sector.
-/
import Verif.Lemmas.Stored
import Verif.Lemmas.Sector
import Verif.Lemmas.SumRule
import Mathlib.Algebra.Order.Field.Rat

namespace TJ

open Finset

section
variable {n : Nat} (pos : Fin n → Pt)

/-- The sites where two occupations differ. -/
def differ (σ τ : Conf n) : Finset (Fin n) := univ.filter fun s => σ s ≠ τ s

theorem differ_exch {σ : Conf n} {a b : Fin n} (h : σ a ≠ σ b) : differ σ (exch σ a b) = {a, b} := by
  ext s
  unfold differ exch
  rw [mem_filter, mem_insert, mem_singleton]
  by_cases h1 : s = a
  · subst h1; simp [h]
  · by_cases h2 : s = b
    · subst h2; simp [h.symm]
    · simp [h1, h2, Equiv.swap_apply_of_ne_of_ne h1 h2]

theorem singlet_ne {pos : Fin n → Pt} {σ : Conf n} {a m b : Fin n} (h : SingletMove pos σ a m b) :
    a ≠ m ∧ a ≠ b ∧ m ≠ b ∧ σ b ≠ .hole ∧ σ m ≠ σ b := by
  obtain ⟨h1, h2, h3, h4, h5⟩ := h
  have hb : σ b ≠ .hole := by rw [h3]; exact fun g => h2 (Occ.rev_hole_iff.1 g)
  refine ⟨near_ne pos h4, ?_, near_ne pos h5, hb, ?_⟩
  · rintro rfl
    exact hb h1
  · intro e
    rw [← e] at h3
    cases hm : σ m <;> simp [hm, Occ.rev] at h2 h3

theorem differ_shift {pos : Fin n → Pt} {σ : Conf n} {a m b : Fin n} (h : SingletMove pos σ a m b) : differ σ (shift3 σ a m b) = {a, m, b} := by
  obtain ⟨n1, n2, n3, hb, hmb⟩ := singlet_ne h
  obtain ⟨h1, h2, h3, h4, h5⟩ := h
  ext s
  unfold differ shift3
  rw [mem_filter, mem_insert, mem_insert, mem_singleton]
  by_cases g1 : s = a
  · subst g1; simp [h1, h2.symm]
  · by_cases g2 : s = m
    · subst g2; simp [g1, hmb]
    · by_cases g3 : s = b
      · subst g3; simp [g1, g2, h1, hb]
      · simp [g1, g2, g3]

/-- The pairs of sites whose contents change places. -/
def PairMove (B : BoolInteractions) (σ : Conf n) (p : Fin n × Fin n) : Prop :=
  (B.bt = true ∧ HopMove pos σ p.1 p.2) ∨ (B.btN = true ∧ NextMove pos σ p.1 p.2) ∨ (B.bij = true ∧ FlipMove pos σ p.1 p.2)

instance (B : BoolInteractions) (σ : Conf n) (p : Fin n × Fin n) : Decidable (PairMove pos B σ p) := by unfold PairMove; infer_instance

variable {pos}

theorem PairMove.kind {B : BoolInteractions} {σ : Conf n} {p : Fin n × Fin n} (h : PairMove pos B σ p) :
    σ p.1 ≠ σ p.2 ∧ ((σ p.1 = .hole ∧ σ p.2 ≠ .hole) ∨ (σ p.1 ≠ .hole ∧ σ p.2 ≠ .hole ∧ p.1 < p.2)) := by
  rcases h with ⟨_, h1, h2, _⟩ | ⟨_, h1, h2, _⟩ | ⟨_, h1, _, h2, h3, h4⟩
  · exact ⟨fun e => h2 (e ▸ h1), Or.inl ⟨h1, h2⟩⟩
  · exact ⟨fun e => h2 (e ▸ h1), Or.inl ⟨h1, h2⟩⟩
  · exact ⟨h4, Or.inr ⟨h2, h3, h1⟩⟩

theorem pair_inj {B : BoolInteractions} {σ : Conf n} {p q : Fin n × Fin n} (hp : PairMove pos B σ p) (hq : PairMove pos B σ q)
    (h : exch σ p.1 p.2 = exch σ q.1 q.2) : p = q := by
  obtain ⟨p1, p2⟩ := hp.kind
  obtain ⟨q1, q2⟩ := hq.kind
  have hd : ({p.1, p.2} : Finset (Fin n)) = {q.1, q.2} := by rw [← differ_exch p1, ← differ_exch q1, h]
  obtain ⟨a, b⟩ := p
  obtain ⟨c, d⟩ := q
  dsimp only at *
  have ha : a = c ∨ a = d := by
    have : a ∈ ({c, d} : Finset (Fin n)) := by rw [← hd]; simp
    simpa using this
  have hb : b = c ∨ b = d := by
    have : b ∈ ({c, d} : Finset (Fin n)) := by rw [← hd]; simp
    simpa using this
  have hab : a ≠ b := by rintro rfl; exact p1 rfl
  rcases ha with rfl | rfl
  · rcases hb with rfl | rfl
    · exact absurd rfl hab
    · rfl
  · rcases hb with rfl | rfl
    · exfalso
      rcases p2 with ⟨x1, x2⟩ | ⟨x1, x2, x3⟩ <;> rcases q2 with ⟨y1, y2⟩ | ⟨y1, y2, y3⟩
      · exact x2 y1
      · exact y2 x1
      · exact x2 y1
      · exact absurd x3 (not_lt_of_gt y3)
    · exact absurd rfl hab

theorem shift_inj {σ : Conf n} {p q : Fin n × Fin n × Fin n} (hp : SingletMove pos σ p.1 p.2.1 p.2.2) (hq : SingletMove pos σ q.1 q.2.1 q.2.2)
    (h : shift3 σ p.1 p.2.1 p.2.2 = shift3 σ q.1 q.2.1 q.2.2) : p = q := by
  have hd : ({p.1, p.2.1, p.2.2} : Finset (Fin n)) = {q.1, q.2.1, q.2.2} := by rw [← differ_shift hp, ← differ_shift hq, h]
  obtain ⟨p1, p2, p3, p4, _⟩ := singlet_ne hp
  obtain ⟨q1, q2, q3, q4, _⟩ := singlet_ne hq
  obtain ⟨hp1, hp2, _⟩ := hp
  obtain ⟨hq1, hq2, _⟩ := hq
  obtain ⟨a, m, b⟩ := p
  obtain ⟨c, k, d⟩ := q
  dsimp only at *
  have ha : a = c ∨ a = k ∨ a = d := by
    have : a ∈ ({c, k, d} : Finset (Fin n)) := by rw [← hd]; simp
    simpa using this
  have hac : a = c := by
    rcases ha with rfl | rfl | rfl
    · rfl
    · exact absurd hp1 hq2
    · exact absurd hp1 q4
  subst hac
  have hb : b = k ∨ b = d := by
    have : b ∈ ({a, k, d} : Finset (Fin n)) := by rw [← hd]; simp
    rw [mem_insert, mem_insert, mem_singleton] at this
    rcases this with e | e
    · exact absurd e.symm p2
    · exact e
  have hbd : b = d := by
    rcases hb with rfl | rfl
    · exfalso
      have := congrFun h b
      unfold shift3 at this
      simp only [p2.symm, p3.symm, q3, if_true, if_false, hp1] at this
      exact q4 this.symm
    · rfl
  subst hbd
  have hm : m = k := by
    have : m ∈ ({a, k, b} : Finset (Fin n)) := by rw [← hd]; simp
    rw [mem_insert, mem_insert, mem_singleton] at this
    rcases this with e | e | e
    · exact absurd e.symm p1
    · exact e
    · exact absurd e p3
  rw [hm]

theorem near_not_next {a b m : Fin n} (h : Near (pos a) (pos b)) (h1 : Near (pos a) (pos m)) (h2 : Near (pos m) (pos b)) : False := by
  unfold Near at h h1 h2
  omega

/-- Number of occupations connected with `σ`. -/
theorem card_linked (B : BoolInteractions) (hSD : B.bSD = true → B.btN = true) (σ : Conf n) :
    (univ.filter (Linked pos B σ)).card = (if B.bz = true ∨ B.bV = true then 1 else 0) +
      ((if B.bt then (univ.filter fun p : Fin n × Fin n => HopMove pos σ p.1 p.2).card else 0) +
       (if B.btN then (univ.filter fun p : Fin n × Fin n => NextMove pos σ p.1 p.2).card else 0) +
       (if B.bij then (univ.filter fun p : Fin n × Fin n => FlipMove pos σ p.1 p.2).card else 0)) +
      (if B.bSD then (univ.filter fun p : Fin n × Fin n × Fin n => SingletMove pos σ p.1 p.2.1 p.2.2).card else 0) := by
  have hset : univ.filter (Linked pos B σ) = ((if B.bz = true ∨ B.bV = true then {σ} else ∅) ∪
      (univ.filter (PairMove pos B σ)).image (fun p => exch σ p.1 p.2)) ∪
      (if B.bSD then (univ.filter fun p : Fin n × Fin n × Fin n => SingletMove pos σ p.1 p.2.1 p.2.2).image
        (fun p => shift3 σ p.1 p.2.1 p.2.2) else ∅) := by
    ext τ
    rw [mem_filter, mem_union, mem_union, mem_image]
    unfold Linked
    constructor
    · rintro ⟨_, ⟨h1, h2⟩ | ⟨a, b, h1, h2⟩ | ⟨h1, a, m, b, h2, h3 | h3⟩⟩
      · left; left; rw [if_pos h1, h2]; exact mem_singleton_self _
      · left; right; exact ⟨(a, b), mem_filter.2 ⟨mem_univ _, h1⟩, h2.symm⟩
      · right; rw [if_pos h1]; exact mem_image.2 ⟨(a, m, b), mem_filter.2 ⟨mem_univ _, h2⟩, h3.symm⟩
      · left; right
        refine ⟨(a, b), mem_filter.2 ⟨mem_univ _, Or.inr (Or.inl ⟨hSD h1, ?_⟩)⟩, h3.symm⟩
        obtain ⟨_, _, _, hb, _⟩ := singlet_ne h2
        exact ⟨h2.1, hb, m, h2.2.2.2.1, h2.2.2.2.2⟩
    · rintro ((h | ⟨p, h1, h2⟩) | h)
      · split_ifs at h with h1
        · exact ⟨mem_univ _, Or.inl ⟨h1, mem_singleton.1 h⟩⟩
        · exact absurd h (notMem_empty _)
      · exact ⟨mem_univ _, Or.inr (Or.inl ⟨p.1, p.2, (mem_filter.1 h1).2, h2.symm⟩)⟩
      · split_ifs at h with h1
        · obtain ⟨p, h2, h3⟩ := mem_image.1 h
          exact ⟨mem_univ _, Or.inr (Or.inr ⟨h1, p.1, p.2.1, p.2.2, (mem_filter.1 h2).2, Or.inl h3.symm⟩)⟩
        · exact absurd h (notMem_empty _)
  have hpair : (univ.filter (PairMove pos B σ)).card =
      (if B.bt then (univ.filter fun p : Fin n × Fin n => HopMove pos σ p.1 p.2).card else 0) +
      (if B.btN then (univ.filter fun p : Fin n × Fin n => NextMove pos σ p.1 p.2).card else 0) +
      (if B.bij then (univ.filter fun p : Fin n × Fin n => FlipMove pos σ p.1 p.2).card else 0) := by
    have e : ∀ (b : Bool) (P : Fin n × Fin n → Prop) [DecidablePred P],
        (if b then (univ.filter P).card else 0) = (univ.filter fun p => b = true ∧ P p).card := by
      intro b P _
      cases b <;> simp
    rw [e, e, e, ← card_union_of_disjoint, ← card_union_of_disjoint]
    · congr 1
      ext p
      simp only [mem_filter, mem_univ, true_and, mem_union]
      unfold PairMove
      tauto
    · rw [disjoint_left]
      intro p hp hq
      simp only [mem_filter, mem_univ, true_and, mem_union] at hp hq
      obtain ⟨_, _, _, h3, _⟩ := hq
      rcases hp with ⟨_, h1, _⟩ | ⟨_, h1, _⟩ <;> exact h3 h1
    · rw [disjoint_left]
      intro p hp hq
      simp only [mem_filter, mem_univ, true_and] at hp hq
      obtain ⟨_, _, _, h3⟩ := hp
      obtain ⟨_, _, _, m, h4, h5⟩ := hq
      exact near_not_next h3 h4 h5
  rw [hset, card_union_of_disjoint, card_union_of_disjoint, card_image_of_injOn, hpair]
  · congr 1
    · split_ifs <;> simp
    · split_ifs with h
      · refine card_image_of_injOn ?_
        intro p hp q hq
        exact shift_inj (mem_filter.1 hp).2 (mem_filter.1 hq).2
      · rfl
  · intro p hp q hq
    exact pair_inj (mem_filter.1 hp).2 (mem_filter.1 hq).2
  · rw [disjoint_left]
    intro τ h1 h2
    obtain ⟨p, hp, rfl⟩ := mem_image.1 h2
    split_ifs at h1
    · have := mem_singleton.1 h1
      have hd := differ_exch (mem_filter.1 hp).2.kind.1
      rw [this] at hd
      have : p.1 ∈ differ σ σ := by rw [hd]; simp
      simp [differ] at this
    · exact absurd h1 (notMem_empty _)
  · rw [disjoint_left]
    intro τ h1 h2
    split_ifs at h2
    · obtain ⟨p, hp, rfl⟩ := mem_image.1 h2
      have hs := (mem_filter.1 hp).2
      obtain ⟨n1, n2, n3, _, _⟩ := singlet_ne hs
      have hd := differ_shift hs
      rcases mem_union.1 h1 with h1 | h1
      · split_ifs at h1
        · rw [mem_singleton.1 h1] at hd
          have : p.1 ∈ differ σ σ := by rw [hd]; simp
          simp [differ] at this
        · exact absurd h1 (notMem_empty _)
      · obtain ⟨q, hq, e⟩ := mem_image.1 h1
        have hd' := differ_exch (mem_filter.1 hq).2.kind.1
        rw [e, hd] at hd'
        have h3 : ({p.1, p.2.1, p.2.2} : Finset (Fin n)).card = 3 := card_eq_three.2 ⟨_, _, _, n1, n2, n3, rfl⟩
        have h4 := card_le_two (a := q.1) (b := q.2)
        rw [← hd'] at h4
        omega
    · exact absurd h2 (notMem_empty _)

/-- The numbers of holes and spins are kept. -/
theorem linked_sector {h b : Nat} {B : BoolInteractions} {σ τ : Conf n} (hσ : σ ∈ sectorConfs n h b) (hl : Linked pos B σ τ) :
    τ ∈ sectorConfs n h b := by
  have hc : ∀ o, τ.count o = σ.count o := by
    intro o
    rcases hl with ⟨_, rfl⟩ | ⟨a, b, _, rfl⟩ | ⟨_, a, m, b, h1, rfl | rfl⟩
    · rfl
    · exact count_exch ..
    · obtain ⟨n1, n2, n3, _⟩ := singlet_ne h1
      rw [shift3_perm n1 n2 n3]
      exact count_comp ..
    · exact count_exch ..
  unfold sectorConfs at hσ ⊢
  rw [mem_filter] at hσ ⊢
  rw [hc, hc]
  exact ⟨mem_univ _, hσ.2⟩

end

/-! ### Three sites -/

theorem exists_perm_triple {n : Nat} {a m b a' m' b' : Fin n} (h1 : a ≠ m) (h2 : a ≠ b) (h3 : m ≠ b) (k1 : a' ≠ m') (k2 : a' ≠ b')
    (k3 : m' ≠ b') : ∃ e : Equiv.Perm (Fin n), e a = a' ∧ e m = m' ∧ e b = b' := by
  obtain ⟨e, e1, e2⟩ := exists_perm_pair h1 k1
  refine ⟨Equiv.swap (e b) b' * e, ?_, ?_, Equiv.swap_apply_left _ _⟩
  · rw [Equiv.Perm.mul_apply, e1]
    refine Equiv.swap_apply_of_ne_of_ne ?_ k2
    rw [← e1]
    exact fun g => h2 (e.injective g)
  · rw [Equiv.Perm.mul_apply, e2]
    refine Equiv.swap_apply_of_ne_of_ne ?_ k3
    rw [← e2]
    exact fun g => h3 (e.injective g)

theorem triple_count_eq (n h b : Nat) (P : Occ → Occ → Occ → Prop) [∀ x y z, Decidable (P x y z)] {s t u s' t' u' : Fin n}
    (h1 : s ≠ t) (h2 : s ≠ u) (h3 : t ≠ u) (k1 : s' ≠ t') (k2 : s' ≠ u') (k3 : t' ≠ u') :
    ((sectorConfs n h b).filter fun σ => P (σ s) (σ t) (σ u)).card = ((sectorConfs n h b).filter fun σ => P (σ s') (σ t') (σ u')).card := by
  obtain ⟨e, e1, e2, e3⟩ := exists_perm_triple k1 k2 k3 h1 h2 h3
  refine card_bij (fun σ _ => fun x => σ (e x)) ?_ ?_ ?_
  · intro σ hσ
    rw [mem_filter] at hσ ⊢
    refine ⟨(sectorConfs_comp e).2 hσ.1, ?_⟩
    simp only [e1, e2, e3]
    exact hσ.2
  · intro σ _ τ _ hs
    funext x
    have := congrFun hs (e.symm x)
    simpa using this
  · intro τ hτ
    rw [mem_filter] at hτ
    refine ⟨fun x => τ (e.symm x), ?_, by funext x; simp⟩
    rw [mem_filter]
    refine ⟨(sectorConfs_comp e.symm).2 hτ.1, ?_⟩
    rw [← e1, ← e2, ← e3]
    simpa using hτ.2

/-- Triples of different sites. -/
def triples (n : Nat) : Finset (Fin n × Fin n × Fin n) := univ.filter fun p => p.1 ≠ p.2.1 ∧ p.1 ≠ p.2.2 ∧ p.2.1 ≠ p.2.2

theorem card_triples (n : Nat) : (triples n).card = n * (n - 1) * (n - 2) := by
  have h1 : (triples n).card = ∑ a : Fin n, ∑ m : Fin n, if a ≠ m then (n - 2) else 0 := by
    unfold triples
    rw [card_filter, Fintype.sum_prod_type]
    refine sum_congr rfl fun a _ => ?_
    rw [Fintype.sum_prod_type]
    refine sum_congr rfl fun m _ => ?_
    by_cases h : a = m
    · simp [h]
    · rw [if_pos h, ← card_filter]
      have e : (univ.filter fun x : Fin n => a ≠ m ∧ a ≠ x ∧ m ≠ x) = univ \ {a, m} := by
        ext x
        simp only [mem_filter, mem_univ, true_and, mem_sdiff, mem_insert, mem_singleton, not_or]
        exact ⟨fun g => ⟨g.2.1.symm, g.2.2.symm⟩, fun g => ⟨h, Ne.symm g.1, Ne.symm g.2⟩⟩
      rw [e, card_sdiff_of_subset (subset_univ _), card_univ, Fintype.card_fin, card_pair h]
  rw [h1]
  have h2 : ∀ a : Fin n, (∑ m : Fin n, if a ≠ m then (n - 2) else 0) = (n - 1) * (n - 2) := by
    intro a
    rw [← sum_filter, sum_const, smul_eq_mul]
    congr 1
    have : (univ.filter fun m : Fin n => a ≠ m) = univ \ {a} := by ext; simp [eq_comm]
    rw [this, card_sdiff_of_subset (subset_univ _), card_univ, Fintype.card_fin, card_singleton]
  rw [sum_congr rfl (fun a _ => h2 a), sum_const, card_univ, Fintype.card_fin, smul_eq_mul, Nat.mul_assoc]

/-- A hole and two opposite spins on three given sites. -/
theorem singlet_count (n h b : Nat) {s t u : Fin n} (h1 : s ≠ t) (h2 : s ≠ u) (h3 : t ≠ u) :
    n * (n - 1) * (n - 2) * ((sectorConfs n h b).filter fun σ => σ s = .hole ∧ σ t ≠ .hole ∧ σ u = (σ t).rev).card =
      (sectorConfs n h b).card * (2 * (h * (b * (n - h - b)))) := by
  set P : Occ → Occ → Occ → Prop := fun x y z => x = .hole ∧ y ≠ .hole ∧ z = y.rev with hP
  have hdec : ∀ x y z, Decidable (P x y z) := fun x y z => by rw [hP]; infer_instance
  have hN : ∀ σ ∈ sectorConfs n h b, ((triples n).filter fun p => P (σ p.1) (σ p.2.1) (σ p.2.2)).card = 2 * (h * (b * (n - h - b))) := by
    intro σ hσ
    unfold sectorConfs at hσ
    simp only [mem_filter, mem_univ, true_and] at hσ
    have hu : σ.count .up = n - h - b := by
      have := count_kinds σ
      omega
    have e : (triples n).filter (fun p => P (σ p.1) (σ p.2.1) (σ p.2.2)) =
        (univ.filter fun s => σ s = .hole) ×ˢ ((univ.filter fun s => σ s = .down) ×ˢ (univ.filter fun s => σ s = .up) ∪
          (univ.filter fun s => σ s = .up) ×ˢ (univ.filter fun s => σ s = .down)) := by
      ext ⟨x, y, z⟩
      simp only [triples, mem_filter, mem_univ, true_and, mem_product, mem_union, hP]
      constructor
      · rintro ⟨_, g1, g2, g3⟩
        refine ⟨g1, ?_⟩
        rw [g3]
        cases hy : σ y <;> simp_all [Occ.rev]
      · rintro ⟨g1, ⟨g2, g3⟩ | ⟨g2, g3⟩⟩
        · refine ⟨⟨?_, ?_, ?_⟩, g1, by simp [g2], by simp [g2, g3, Occ.rev]⟩ <;> rintro rfl <;> simp_all
        · refine ⟨⟨?_, ?_, ?_⟩, g1, by simp [g2], by simp [g2, g3, Occ.rev]⟩ <;> rintro rfl <;> simp_all
    rw [e, card_product, card_union_of_disjoint, card_product, card_product]
    · have e0 : (univ.filter fun s => σ s = .hole).card = h := hσ.1
      have e1 : (univ.filter fun s => σ s = .down).card = b := hσ.2
      have e2 : (univ.filter fun s => σ s = .up).card = n - h - b := hu
      rw [e0, e1, e2]
      ring
    · rw [disjoint_left]
      intro p hp hq
      rw [mem_product, mem_filter, mem_filter] at hp hq
      rw [hp.1.2] at hq
      exact absurd hq.1.2 (by simp)
  have s1 : ∑ p ∈ triples n, ((sectorConfs n h b).filter fun σ => P (σ p.1) (σ p.2.1) (σ p.2.2)).card =
      (triples n).card * ((sectorConfs n h b).filter fun σ => P (σ s) (σ t) (σ u)).card := by
    rw [Finset.sum_const_nat]
    intro p hp
    obtain ⟨_, k1, k2, k3⟩ := mem_filter.1 hp
    exact triple_count_eq n h b P k1 k2 k3 h1 h2 h3
  have s2 : ∑ p ∈ triples n, ((sectorConfs n h b).filter fun σ => P (σ p.1) (σ p.2.1) (σ p.2.2)).card =
      (sectorConfs n h b).card * (2 * (h * (b * (n - h - b)))) := by
    simp only [card_filter (fun σ : Conf n => _) (sectorConfs n h b)]
    rw [sum_comm, Finset.sum_const_nat]
    intro σ hσ
    rw [← hN σ hσ, card_filter]
  rw [← card_triples, ← s2, s1]
  congr!

/-! ### Sums over the sector -/

/-- If each of the pairs `p` of a set fits `N` occupations, then the numbers of fitting pairs add up to its size times `N`. -/
theorem sum_moves {n h b : Nat} {α : Type} [Fintype α] [DecidableEq α] (G : α → Prop) [DecidablePred G] (P : Conf n → α → Prop)
    [∀ σ p, Decidable (P σ p)] (x : ℚ) (hN : ∀ p, G p → (((sectorConfs n h b).filter fun σ => P σ p).card : ℚ) = x) :
    ((∑ σ ∈ sectorConfs n h b, (univ.filter fun p => G p ∧ P σ p).card : Nat) : ℚ) = (univ.filter G).card * x := by
  have e : ∀ σ : Conf n, (univ.filter fun p => G p ∧ P σ p).card = ∑ p ∈ univ.filter G, if P σ p then 1 else 0 := by
    intro σ
    rw [← filter_filter, card_filter]
  simp only [e]
  rw [sum_comm]
  push_cast
  have e2 : ∀ p ∈ univ.filter G, (∑ σ ∈ sectorConfs n h b, if P σ p then (1 : ℚ) else 0) = x := by
    intro p hp
    rw [← hN p (mem_filter.1 hp).2, card_filter]
    push_cast
    rfl
  rw [sum_congr rfl e2, sum_const, nsmul_eq_mul]

theorem two_of_ne {n : Nat} {s t : Fin n} (h : s ≠ t) : 2 ≤ n := by
  have := s.2
  have := t.2
  have : s.1 ≠ t.1 := fun e => h (Fin.ext e)
  omega

theorem three_of_ne {n : Nat} {s t u : Fin n} (h1 : s ≠ t) (h2 : s ≠ u) (h3 : t ≠ u) : 3 ≤ n := by
  have := s.2
  have := t.2
  have := u.2
  have : s.1 ≠ t.1 := fun e => h1 (Fin.ext e)
  have : s.1 ≠ u.1 := fun e => h2 (Fin.ext e)
  have : t.1 ≠ u.1 := fun e => h3 (Fin.ext e)
  omega

theorem div_of_mul {a b c : Nat} (h : a * b = c) (ha : a ≠ 0) : (b : ℚ) = c / a := by
  have : (a : ℚ) * b = c := by exact_mod_cast h
  rw [eq_div_iff (by exact_mod_cast ha), ← this]
  ring

section
variable {n : Nat} (pos : Fin n → Pt) (h b : Nat)

/-- Ordered pairs of neighbours. -/
def nearOrd : Finset (Fin n × Fin n) := univ.filter fun p => Near (pos p.1) (pos p.2)

/-- Ordered pairs of different sites two bonds apart. -/
def nextOrd : Finset (Fin n × Fin n) := univ.filter fun p => p.1 ≠ p.2 ∧ ∃ m, Near (pos p.1) (pos m) ∧ Near (pos m) (pos p.2)

/-- Paths of two bonds between different sites. -/
def twoPaths : Finset (Fin n × Fin n × Fin n) := univ.filter fun p => p.1 ≠ p.2.2 ∧ Near (pos p.1) (pos p.2.1) ∧ Near (pos p.2.1) (pos p.2.2)

theorem sum_hopMoves : ((∑ σ ∈ sectorConfs n h b, (univ.filter fun p : Fin n × Fin n => HopMove pos σ p.1 p.2).card : Nat) : ℚ) =
    (nearOrd pos).card * (((sectorConfs n h b).card * (h * (n - h)) : Nat) / (n * (n - 1) : Nat)) := by
  rw [nearOrd, ← sum_moves _ (fun σ p => σ p.1 = .hole ∧ σ p.2 ≠ .hole)]
  · congr 1
    refine sum_congr rfl fun σ _ => congrArg card ?_
    ext p
    simp only [mem_filter, mem_univ, true_and]
    unfold HopMove
    tauto
  · intro p hp
    have hne := near_ne pos hp
    have := two_of_ne hne
    exact div_of_mul (hop_count n h b hne) (Nat.mul_ne_zero (by omega) (by omega))

theorem sum_nextMoves : ((∑ σ ∈ sectorConfs n h b, (univ.filter fun p : Fin n × Fin n => NextMove pos σ p.1 p.2).card : Nat) : ℚ) =
    (nextOrd pos).card * (((sectorConfs n h b).card * (h * (n - h)) : Nat) / (n * (n - 1) : Nat)) := by
  rw [nextOrd, ← sum_moves _ (fun σ p => σ p.1 = .hole ∧ σ p.2 ≠ .hole)]
  · congr 1
    refine sum_congr rfl fun σ _ => congrArg card ?_
    ext p
    simp only [mem_filter, mem_univ, true_and]
    unfold NextMove
    constructor
    · rintro ⟨h1, h2, h3⟩
      exact ⟨⟨fun e => h2 (e ▸ h1), h3⟩, h1, h2⟩
    · rintro ⟨⟨_, h3⟩, h1, h2⟩
      exact ⟨h1, h2, h3⟩
  · intro p hp
    have := two_of_ne hp.1
    exact div_of_mul (hop_count n h b hp.1) (Nat.mul_ne_zero (by omega) (by omega))

theorem sum_flipMoves : ((∑ σ ∈ sectorConfs n h b, (univ.filter fun p : Fin n × Fin n => FlipMove pos σ p.1 p.2).card : Nat) : ℚ) =
    (univ.filter fun p : Fin n × Fin n => p.1 < p.2 ∧ Near (pos p.1) (pos p.2)).card *
      (((sectorConfs n h b).card * (2 * (b * (n - h - b))) : Nat) / (n * (n - 1) : Nat)) := by
  rw [← sum_moves _ (fun σ p => σ p.1 ≠ .hole ∧ σ p.2 ≠ .hole ∧ σ p.1 ≠ σ p.2)]
  · congr 1
    refine sum_congr rfl fun σ _ => congrArg card ?_
    ext p
    simp only [mem_filter, mem_univ, true_and]
    unfold FlipMove
    tauto
  · intro p hp
    have hne := near_ne pos hp.2
    have := two_of_ne hne
    exact div_of_mul (opposite_count n h b hne) (Nat.mul_ne_zero (by omega) (by omega))

theorem sum_singletMoves :
    ((∑ σ ∈ sectorConfs n h b, (univ.filter fun p : Fin n × Fin n × Fin n => SingletMove pos σ p.1 p.2.1 p.2.2).card : Nat) : ℚ) =
    (twoPaths pos).card * (((sectorConfs n h b).card * (2 * (h * (b * (n - h - b)))) : Nat) / (n * (n - 1) * (n - 2) : Nat)) := by
  rw [twoPaths, ← sum_moves _ (fun σ p => σ p.1 = .hole ∧ σ p.2.1 ≠ .hole ∧ σ p.2.2 = (σ p.2.1).rev)]
  · congr 1
    refine sum_congr rfl fun σ _ => congrArg card ?_
    ext p
    simp only [mem_filter, mem_univ, true_and]
    constructor
    · intro hs
      have := singlet_ne hs
      obtain ⟨h1, h2, h3, h4, h5⟩ := hs
      exact ⟨⟨this.2.1, h4, h5⟩, h1, h2, h3⟩
    · rintro ⟨⟨_, h4, h5⟩, h1, h2, h3⟩
      exact ⟨h1, h2, h3, h4, h5⟩
  · intro p hp
    have n1 := near_ne pos hp.2.1
    have n3 := near_ne pos hp.2.2
    have := three_of_ne n1 hp.1 n3
    exact div_of_mul (singlet_count n h b n1 hp.1 n3) (Nat.mul_ne_zero (Nat.mul_ne_zero (by omega) (by omega)) (by omega))

end

end TJ
