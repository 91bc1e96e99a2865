/-
Numbers of pairs of sites of a rectangle that are one or two bonds apart.
-/
import Verif.Lemmas.StoredCount
import Verif.Props.SumRule

namespace TJ

open Finset

/-- Two numbers with difference `k`. -/
def stepEl (k x y : Nat) : ℝ := if x + k = y ∨ y + k = x then 1 else 0

theorem sum_step {k : Nat} (hk : 0 < k) (W : Nat) : ∑ x ∈ range W, ∑ y ∈ range W, stepEl k x y = 2 * ((W - k : Nat) : ℝ) := by
  induction W with
  | zero => simp
  | succ W ih =>
    rw [sum_range_succ]
    have e : ∑ x ∈ range W, ∑ y ∈ range (W + 1), stepEl k x y =
        (∑ x ∈ range W, ∑ y ∈ range W, stepEl k x y) + ∑ x ∈ range W, stepEl k x W := by
      rw [← sum_add_distrib]
      exact sum_congr rfl fun x _ => sum_range_succ _ _
    have p1 : ∀ x ∈ range W, stepEl k x W = if x = W - k then (if k ≤ W then 1 else 0) else 0 := by
      intro x hx
      rw [mem_range] at hx
      unfold stepEl
      split_ifs <;> first | rfl | (exfalso; omega)
    have p2 : ∀ y ∈ range (W + 1), stepEl k W y = if y = W - k then (if k ≤ W then 1 else 0) else 0 := by
      intro x hx
      rw [mem_range] at hx
      unfold stepEl
      split_ifs <;> first | rfl | (exfalso; omega)
    rw [e, ih, sum_congr rfl p1, sum_congr rfl p2, sum_ite_eq', sum_ite_eq']
    by_cases h : k ≤ W
    · rw [if_pos h, if_pos (mem_range.2 (by omega)), if_pos (mem_range.2 (by omega)), show W + 1 - k = (W - k) + 1 by omega]
      push_cast
      ring
    · rw [if_neg h, show W + 1 - k = 0 by omega, show W - k = 0 by omega]
      simp

/-- Two sites on one line with one site between them. -/
def Straight (p q : Pt) : Prop := (p.2 = q.2 ∧ (p.1 - q.1).natAbs = 2) ∨ (p.1 = q.1 ∧ (p.2 - q.2).natAbs = 2)

instance (p q : Pt) : Decidable (Straight p q) := by unfold Straight; infer_instance

theorem card_ordered {n : Nat} (P : Fin n → Fin n → Prop) [∀ a b, Decidable (P a b)] :
    ((univ.filter fun p : Fin n × Fin n => P p.1 p.2).card : ℝ) = ∑ a, ∑ b, if P a b then (1 : ℝ) else 0 := by
  rw [card_filter, ← Fintype.sum_prod_type' (f := fun a b => if P a b then (1 : ℝ) else 0)]
  push_cast
  rfl

theorem card_straight {n W H : Nat} (hW : 0 < W) (hn : n = W * H) :
    (univ.filter fun p : Fin n × Fin n => Straight (gridPos W p.1) (gridPos W p.2)).card = rectStraight W H := by
  unfold rectStraight
  have h := card_ordered (fun a b : Fin n => Straight (gridPos W a) (gridPos W b))
  have e : ∀ a b : Fin n, (if Straight (gridPos W a) (gridPos W b) then (1 : ℝ) else 0) =
      stepEl 2 (a % W) (b % W) * (if a.1 / W = b / W then 1 else 0) + (if a.1 % W = b % W then 1 else 0) * stepEl 2 (a / W) (b / W) := by
    intro a b
    have hS : Straight (gridPos W a) (gridPos W b) ↔ (a.1 / W = b / W ∧ (a.1 % W + 2 = b % W ∨ b.1 % W + 2 = a % W)) ∨
        (a.1 % W = b % W ∧ (a.1 / W + 2 = b / W ∨ b.1 / W + 2 = a / W)) := by
      unfold Straight gridPos
      simp only
      omega
    simp only [hS]
    unfold stepEl
    split_ifs <;> first | ring1 | (exfalso; omega) | (exfalso; tauto)
  simp only [e] at h
  rw [sum_fin_grid hW hn (fun x y x' y' => stepEl 2 x x' * (if y = y' then 1 else 0) + (if x = x' then 1 else 0) * stepEl 2 y y')] at h
  have s1 : ∀ x ∈ range W, ∑ y ∈ range H, ∑ x' ∈ range W, ∑ y' ∈ range H,
      (stepEl 2 x x' * (if y = y' then 1 else 0) + (if x = x' then 1 else 0) * stepEl 2 y y') =
      (H : ℝ) * ∑ x' ∈ range W, stepEl 2 x x' + 2 * ((H - 2 : Nat) : ℝ) := by
    intro x hx
    have i1 : ∀ y ∈ range H, ∑ x' ∈ range W, ∑ y' ∈ range H,
        (stepEl 2 x x' * (if y = y' then 1 else 0) + (if x = x' then 1 else 0) * stepEl 2 y y') =
        ∑ x' ∈ range W, stepEl 2 x x' + ∑ y' ∈ range H, stepEl 2 y y' := by
      intro y hy
      have i2 : ∀ x' ∈ range W, ∑ y' ∈ range H, (stepEl 2 x x' * (if y = y' then 1 else 0) + (if x = x' then 1 else 0) * stepEl 2 y y') =
          stepEl 2 x x' + if x = x' then ∑ y' ∈ range H, stepEl 2 y y' else 0 := by
        intro x' _
        rw [sum_add_distrib, ← mul_sum, ← mul_sum, sum_ite_eq, if_pos hy, mul_one]
        split_ifs <;> ring
      rw [sum_congr rfl i2, sum_add_distrib, sum_ite_eq, if_pos hx]
    rw [sum_congr rfl i1, sum_add_distrib, sum_step (by norm_num), sum_const, card_range, nsmul_eq_mul]
  rw [sum_congr rfl s1, sum_add_distrib, ← mul_sum, sum_step (by norm_num), sum_const, card_range, nsmul_eq_mul] at h
  have : (((univ.filter fun p : Fin n × Fin n => Straight (gridPos W p.1) (gridPos W p.2)).card : Nat) : ℝ) =
      ((2 * (H * (W - 2) + W * (H - 2)) : Nat) : ℝ) := by
    rw [h]
    push_cast
    ring
  exact_mod_cast this

/-- Ordered pairs are twice the unordered ones. -/
theorem card_double {n : Nat} (P : Fin n → Fin n → Prop) [∀ a b, Decidable (P a b)] (hs : ∀ a b, P a b → P b a) (hd : ∀ a, ¬ P a a) :
    (univ.filter fun p : Fin n × Fin n => P p.1 p.2).card = 2 * (univ.filter fun p : Fin n × Fin n => p.1 < p.2 ∧ P p.1 p.2).card := by
  have h := card_ordered P
  rw [half_sum P hs hd] at h
  exact_mod_cast h

theorem card_nearOrd {n W H : Nat} (hW : 0 < W) (hn : n = W * H) : (nearOrd fun s : Fin n => gridPos W s).card = 2 * rectBonds W H := by
  unfold nearOrd rectBonds
  rw [card_double (fun a b : Fin n => Near (gridPos W a) (gridPos W b)) (fun a b => near_symm.1)
    (fun a h => near_ne (fun s : Fin n => gridPos W s) h rfl), ← card_nearPairs hW hn]
  rfl

theorem card_diagonalOrd {n W H : Nat} (hW : 0 < W) (hn : n = W * H) :
    (univ.filter fun p : Fin n × Fin n => Diagonal (gridPos W p.1) (gridPos W p.2)).card = 2 * rectDiagonals W H := by
  unfold rectDiagonals
  rw [card_double (fun a b : Fin n => Diagonal (gridPos W a) (gridPos W b)) (fun a b h => by unfold Diagonal at h ⊢; omega)
    (fun a h => by unfold Diagonal at h; omega), ← card_diagonalPairs hW hn]
  rfl

/-! ### The sites between two sites -/

theorem site_exists {n W H : Nat} (hn : n = W * H) {x y : Nat} (hx : x < W) (hy : y < H) : ∃ s : Fin n, s.1 % W = x ∧ s.1 / W = y := by
  refine ⟨⟨x + W * y, ?_⟩, ?_, ?_⟩
  · rw [hn]
    calc x + W * y < W + W * y := by omega
      _ = W * (y + 1) := by ring
      _ ≤ W * H := Nat.mul_le_mul_left _ hy
  · show (x + W * y) % W = x
    rw [Nat.add_mul_mod_self_left, Nat.mod_eq_of_lt hx]
  · show (x + W * y) / W = y
    rw [Nat.add_mul_div_left _ _ (by omega), Nat.div_eq_of_lt hx, zero_add]

theorem site_unique {n W : Nat} {s t : Fin n} (h1 : s.1 % W = t.1 % W) (h2 : s.1 / W = t.1 / W) : s = t := by
  refine Fin.ext ?_
  rw [← Nat.div_add_mod s.1 W, ← Nat.div_add_mod t.1 W, h1, h2]

theorem near_grid_iff {n W : Nat} (a b : Fin n) : Near (gridPos W a) (gridPos W b) ↔
    (a.1 % W = b % W ∧ (a.1 / W + 1 = b / W ∨ b.1 / W + 1 = a / W)) ∨ (a.1 / W = b / W ∧ (a.1 % W + 1 = b % W ∨ b.1 % W + 1 = a % W)) := by
  unfold Near gridPos
  simp only
  omega

/-- Two sites on one line have one site between them, the ends of a diagonal have two common neighbours. -/
theorem card_between {n W H : Nat} (hW : 0 < W) (hn : n = W * H) {a b : Fin n} (hab : a ≠ b) :
    (univ.filter fun m : Fin n => Near (gridPos W a) (gridPos W m) ∧ Near (gridPos W m) (gridPos W b)).card =
      (if Straight (gridPos W a) (gridPos W b) then 1 else 0) + 2 * (if Diagonal (gridPos W a) (gridPos W b) then 1 else 0) := by
  have hx : ∀ s : Fin n, s.1 % W < W := fun s => Nat.mod_lt _ hW
  have hy : ∀ s : Fin n, s.1 / W < H := fun s => Nat.div_lt_of_lt_mul (by rw [← hn]; exact s.2)
  have hne : ¬ (a.1 % W = b.1 % W ∧ a.1 / W = b.1 / W) := fun h => hab (site_unique h.1 h.2)
  have ax := hx a
  have ay := hy a
  have bx := hx b
  have by' := hy b
  have hS : Straight (gridPos W a) (gridPos W b) ↔ (a.1 / W = b / W ∧ (a.1 % W + 2 = b % W ∨ b.1 % W + 2 = a % W)) ∨
      (a.1 % W = b % W ∧ (a.1 / W + 2 = b / W ∨ b.1 / W + 2 = a / W)) := by
    unfold Straight gridPos
    simp only
    omega
  have hD : Diagonal (gridPos W a) (gridPos W b) ↔ (a.1 % W + 1 = b % W ∨ b.1 % W + 1 = a % W) ∧ (a.1 / W + 1 = b / W ∨ b.1 / W + 1 = a / W) := by
    unfold Diagonal gridPos
    simp only
    omega
  by_cases h1 : Straight (gridPos W a) (gridPos W b)
  · have h2 : ¬ Diagonal (gridPos W a) (gridPos W b) := by rw [hD]; rw [hS] at h1; omega
    rw [if_pos h1, if_neg h2, card_eq_one]
    rw [hS] at h1
    rcases h1 with ⟨g1, g2⟩ | ⟨g1, g2⟩
    · obtain ⟨s, s1, s2⟩ := site_exists hn (x := (a.1 % W + b.1 % W) / 2) (y := a.1 / W) (by omega) ay
      refine ⟨s, ?_⟩
      ext m
      simp only [mem_filter, mem_univ, true_and, mem_singleton, near_grid_iff]
      constructor
      · intro g
        exact site_unique (by rw [s1]; omega) (by rw [s2]; omega)
      · rintro rfl
        omega
    · obtain ⟨s, s1, s2⟩ := site_exists hn (x := a.1 % W) (y := (a.1 / W + b.1 / W) / 2) ax (by omega)
      refine ⟨s, ?_⟩
      ext m
      simp only [mem_filter, mem_univ, true_and, mem_singleton, near_grid_iff]
      constructor
      · intro g
        exact site_unique (by rw [s1]; omega) (by rw [s2]; omega)
      · rintro rfl
        omega
  · rw [if_neg h1]
    by_cases h2 : Diagonal (gridPos W a) (gridPos W b)
    · rw [if_pos h2]
      show _ = 2
      rw [hD] at h2
      obtain ⟨s, s1, s2⟩ := site_exists hn (x := b.1 % W) (y := a.1 / W) bx ay
      obtain ⟨t, t1, t2⟩ := site_exists hn (x := a.1 % W) (y := b.1 / W) ax by'
      rw [card_eq_two]
      refine ⟨s, t, ?_, ?_⟩
      · rintro rfl
        omega
      · ext m
        simp only [mem_filter, mem_univ, true_and, mem_insert, mem_singleton, near_grid_iff]
        constructor
        · intro g
          by_cases k : m.1 % W = b.1 % W
          · exact Or.inl (site_unique (by rw [s1, k]) (by rw [s2]; omega))
          · exact Or.inr (site_unique (by rw [t1]; omega) (by rw [t2]; omega))
        · rintro (rfl | rfl) <;> omega
    · rw [if_neg h2]
      show _ = 0
      rw [card_eq_zero, filter_eq_empty_iff]
      intro m _
      rw [near_grid_iff, near_grid_iff]
      rw [hS] at h1
      rw [hD] at h2
      omega

theorem card_nextOrd {n W H : Nat} (hW : 0 < W) (hn : n = W * H) :
    (nextOrd fun s : Fin n => gridPos W s).card = rectStraight W H + 2 * rectDiagonals W H := by
  rw [← card_straight hW hn, ← card_diagonalOrd hW hn, ← card_union_of_disjoint]
  · congr 1
    ext p
    simp only [nextOrd, mem_filter, mem_univ, true_and, mem_union]
    by_cases hp : p.1 = p.2
    · have h1 : ¬ Straight (gridPos W p.1) (gridPos W p.2) := by rw [hp]; unfold Straight; omega
      have h2 : ¬ Diagonal (gridPos W p.1) (gridPos W p.2) := by rw [hp]; unfold Diagonal; omega
      simp [hp] at h1 h2 ⊢
      exact ⟨h1, h2⟩
    · have hc := card_between hW hn hp
      constructor
      · rintro ⟨_, m, h1, h2⟩
        by_contra hcon
        rw [not_or] at hcon
        rw [if_neg hcon.1, if_neg hcon.2] at hc
        have : m ∈ (univ.filter fun m : Fin n => Near (gridPos W p.1) (gridPos W m) ∧ Near (gridPos W m) (gridPos W p.2)) :=
          mem_filter.2 ⟨mem_univ _, h1, h2⟩
        rw [card_eq_zero.1 hc] at this
        exact notMem_empty _ this
      · intro h
        have : 0 < (univ.filter fun m : Fin n => Near (gridPos W p.1) (gridPos W m) ∧ Near (gridPos W m) (gridPos W p.2)).card := by
          rw [hc]
          rcases h with h | h
          · rw [if_pos h]; omega
          · rw [if_pos h]; omega
        obtain ⟨m, hm⟩ := card_pos.1 this
        exact ⟨hp, m, (mem_filter.1 hm).2⟩
  · rw [disjoint_filter]
    intro p _ h1 h2
    unfold Straight at h1
    unfold Diagonal at h2
    omega

theorem card_twoPaths {n W H : Nat} (hW : 0 < W) (hn : n = W * H) :
    (twoPaths fun s : Fin n => gridPos W s).card = rectStraight W H + 4 * rectDiagonals W H := by
  have e : (twoPaths fun s : Fin n => gridPos W s).card = ∑ p : Fin n × Fin n, if p.1 ≠ p.2 then
      (univ.filter fun m : Fin n => Near (gridPos W p.1) (gridPos W m) ∧ Near (gridPos W m) (gridPos W p.2)).card else 0 := by
    unfold twoPaths
    rw [card_filter, Fintype.sum_prod_type, Fintype.sum_prod_type]
    refine sum_congr rfl fun a _ => ?_
    rw [Fintype.sum_prod_type, sum_comm]
    refine sum_congr rfl fun b _ => ?_
    by_cases h : a = b
    · simp [h]
    · rw [if_pos h, card_filter]
      refine sum_congr rfl fun m _ => ?_
      simp [h]
  have e2 : ∀ p : Fin n × Fin n, (if p.1 ≠ p.2 then
      (univ.filter fun m : Fin n => Near (gridPos W p.1) (gridPos W m) ∧ Near (gridPos W m) (gridPos W p.2)).card else 0) =
      (if Straight (gridPos W p.1) (gridPos W p.2) then 1 else 0) + 2 * (if Diagonal (gridPos W p.1) (gridPos W p.2) then 1 else 0) := by
    intro p
    by_cases h : p.1 = p.2
    · have h1 : ¬ Straight (gridPos W p.1) (gridPos W p.2) := by rw [h]; unfold Straight; omega
      have h2 : ¬ Diagonal (gridPos W p.1) (gridPos W p.2) := by rw [h]; unfold Diagonal; omega
      rw [if_neg (not_not.2 h), if_neg h1, if_neg h2]
    · rw [if_pos h, card_between hW hn h]
  rw [e, sum_congr rfl (fun p _ => e2 p), sum_add_distrib, ← mul_sum, ← card_filter, ← card_filter, card_straight hW hn, card_diagonalOrd hW hn]
  ring

end TJ
