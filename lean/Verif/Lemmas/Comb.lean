/-
Combinations: members, number, order, and the rank of a combination.
-/
import Verif.Model.Base
import Mathlib.Tactic.Linarith
import Mathlib.Tactic.Ring
import Mathlib.Data.List.Range
import Mathlib.Data.List.Lex
import Mathlib.Data.List.Nodup

namespace TJ

variable {α β : Type*}

theorem mem_combinations {l : List α} {k : Nat} {x : List α} :
    x ∈ combinations l k ↔ x.Sublist l ∧ x.length = k := by
  induction l generalizing k x with
  | nil =>
    cases k with
    | zero => simp only [combinations, List.mem_singleton, List.sublist_nil]; grind
    | succ k => simp only [combinations, List.not_mem_nil, List.sublist_nil, false_iff]; grind
  | cons a l ih =>
    cases k with
    | zero =>
      simp only [combinations, List.mem_singleton]
      constructor
      · rintro rfl; simp
      · rintro ⟨_, h⟩; exact List.eq_nil_of_length_eq_zero h
    | succ k =>
      simp only [combinations, List.mem_append, List.mem_map, ih]
      constructor
      · rintro (⟨y, ⟨h1, h2⟩, rfl⟩ | ⟨h1, h2⟩)
        · exact ⟨h1.cons_cons a, by simp [h2]⟩
        · exact ⟨h1.cons a, h2⟩
      · rintro ⟨h1, h2⟩
        cases h1 with
        | cons _ h => exact Or.inr ⟨h, h2⟩
        | cons_cons _ h => exact Or.inl ⟨_, ⟨h, by simpa using h2⟩, rfl⟩

theorem length_combinations (l : List α) (k : Nat) :
    (combinations l k).length = l.length.choose k := by
  induction l generalizing k with
  | nil => cases k <;> simp [combinations]
  | cons a l ih =>
    cases k with
    | zero => simp [combinations]
    | succ k => simp [combinations, ih, Nat.choose_succ_succ]

theorem combinations_map (f : α → β) (l : List α) (k : Nat) :
    combinations (l.map f) k = (combinations l k).map (List.map f) := by
  induction l generalizing k with
  | nil => cases k <;> simp [combinations]
  | cons a l ih =>
    cases k with
    | zero => simp [combinations]
    | succ k => simp [combinations, ih, List.map_map, Function.comp_def]

theorem nodup_combinations {l : List α} (h : l.Nodup) (k : Nat) : (combinations l k).Nodup := by
  induction l generalizing k with
  | nil => cases k <;> simp [combinations]
  | cons a l ih =>
    cases k with
    | zero => simp [combinations]
    | succ k =>
      rw [List.nodup_cons] at h
      simp only [combinations]
      rw [List.nodup_append]
      refine ⟨(ih h.2 k).map (fun x y hxy => by simpa using hxy), ih h.2 _, ?_⟩
      intro x hx y hy hxy
      subst hxy
      obtain ⟨z, _, rfl⟩ := List.mem_map.1 hx
      exact h.1 ((mem_combinations.1 hy).1.subset (by simp))

/-- Combinations of an increasing list come in strictly increasing lexicographic order. -/
theorem pairwise_lex_combinations {l : List Nat} (h : l.Pairwise (· < ·)) (k : Nat) :
    (combinations l k).Pairwise (List.Lex (· < ·)) := by
  induction l generalizing k with
  | nil => cases k <;> simp [combinations]
  | cons a l ih =>
    cases k with
    | zero => simp [combinations]
    | succ k =>
      rw [List.pairwise_cons] at h
      simp only [combinations]
      rw [List.pairwise_append]
      refine ⟨?_, ih h.2 _, ?_⟩
      · rw [List.pairwise_map]
        exact (ih h.2 k).imp (fun hxy => List.Lex.cons hxy)
      · intro x hx y hy
        obtain ⟨z, _, rfl⟩ := List.mem_map.1 hx
        obtain ⟨hs, hl⟩ := mem_combinations.1 hy
        cases y with
        | nil => simp at hl
        | cons b y => exact List.Lex.rel (h.1 b (hs.subset (by simp)))

/-! ### Rank -/

/-- Rank of `xs` among the combinations of `range' a (m - a)` of the same size. -/
def rankFrom (m : Nat) : Nat → List Nat → Nat
  | _, [] => 0
  | a, x :: xs =>
    ((List.range' a (x - a)).map (fun j => (m - 1 - j).choose xs.length)).sum + rankFrom m (x + 1) xs

theorem rankFrom_cons_eq (m a x : Nat) (xs : List Nat) (h : a < x) :
    rankFrom m a (x :: xs) = (m - 1 - a).choose xs.length + rankFrom m (a + 1) (x :: xs) := by
  simp only [rankFrom]
  obtain ⟨d, rfl⟩ : ∃ d, x = a + 1 + d := ⟨x - a - 1, by omega⟩
  have e1 : a + 1 + d - a = d + 1 := by omega
  have e2 : a + 1 + d - (a + 1) = d := by omega
  rw [e1, e2, List.range'_succ]
  simp only [List.map_cons, List.sum_cons]
  omega

/-- The combination of rank `rankFrom` is the given one. -/
theorem getElem?_rankFrom (d a : Nat) (xs : List Nat) (h : xs.Sublist (List.range' a d)) :
    (combinations (List.range' a d) xs.length)[rankFrom (a + d) a xs]? = some xs := by
  induction d generalizing a xs with
  | zero =>
    simp only [List.range'_zero, List.sublist_nil] at h
    subst h
    simp [combinations, rankFrom]
  | succ d ih =>
    cases xs with
    | nil => simp [combinations, rankFrom]
    | cons x xs =>
      rw [List.range'_succ] at h
      have hlen : ((combinations (List.range' (a + 1) d) xs.length).map (fun l => a :: l)).length
          = d.choose xs.length := by simp [length_combinations]
      rw [List.range'_succ]
      simp only [List.length_cons, combinations]
      cases h with
      | cons _ h =>
        have hax : a < x := by
          have := h.subset (List.mem_cons_self)
          simp only [List.mem_range'_1] at this; omega
        rw [rankFrom_cons_eq _ _ _ _ hax]
        have := ih (a + 1) (x :: xs) h
        rw [List.getElem?_append_right (by rw [hlen]; have : a + (d + 1) - 1 - a = d := by omega
                                           rw [this]; omega), hlen]
        have e : a + (d + 1) - 1 - a = d := by omega
        rw [e, Nat.add_sub_cancel_left]
        have e2 : a + 1 + d = a + (d + 1) := by omega
        rw [e2] at this
        exact this
      | cons_cons _ h =>
        have := ih (a + 1) xs h
        have e2 : a + 1 + d = a + (d + 1) := by omega
        rw [e2] at this
        simp only [rankFrom, Nat.sub_self, List.range'_zero, List.map_nil, List.sum_nil, Nat.zero_add]
        have hb : rankFrom (a + (d + 1)) (a + 1) xs < (combinations (List.range' (a + 1) d) xs.length).length := by
          by_contra hc
          rw [List.getElem?_eq_none (by omega)] at this
          simp at this
        rw [List.getElem?_append_left (by simpa using hb), List.getElem?_map, this]
        rfl

theorem rankFrom_lt (d a : Nat) (xs : List Nat) (h : xs.Sublist (List.range' a d)) :
    rankFrom (a + d) a xs < d.choose xs.length := by
  have := getElem?_rankFrom d a xs h
  by_contra hc
  rw [List.getElem?_eq_none (by rw [length_combinations]; simpa using hc)] at this
  simp at this

theorem getElem?_rank (n : Nat) (xs : List Nat) (h : xs.Sublist (List.range n)) :
    (combinations (List.range n) xs.length)[rankFrom n 0 xs]? = some xs := by
  rw [List.range_eq_range'] at *
  have := getElem?_rankFrom n 0 xs h
  simpa using this

/-! ### `pyComb` and `get_distance_hash` -/

theorem pyComb_nat (n k : Nat) : pyComb n k = n.choose k := by
  unfold pyComb
  split
  · rename_i h
    have : n < k := by omega
    rw [Nat.choose_eq_zero_of_lt this]
  · simp

theorem rangeInt_sum (free a x k : Nat) (hx : x < free) :
    ((rangeInt (a : Int) (x : Int)).map (fun j => pyComb ((free : Int) - j - 1) (k : Int))).sum
      = ((List.range' a (x - a)).map (fun j => (free - 1 - j).choose k)).sum := by
  unfold rangeInt
  have e : ((x : Int) - (a : Int)).toNat = x - a := by omega
  rw [e, List.range'_eq_map_range, List.map_map, List.map_map]
  congr 1
  apply List.map_congr_left
  intro i hi
  rw [List.mem_range] at hi
  simp only [Function.comp]
  rw [show (free : Int) - ((a : Int) + (i : Int)) - 1 = ((free - 1 - (a + i) : Nat) : Int) by omega, pyComb_nat]

theorem rankFrom_eq_sum (m : Nat) (xs : List Nat) (a x : Nat) (hm : ∀ y ∈ x :: xs, y < m)
    (k : Nat) (hk : k = xs.length) :
    rankFrom m a (x :: xs) =
      ((List.range' a (x - a)).map (fun j => (m - 1 - j).choose xs.length)).sum
      + ((List.range k).map (fun i =>
        ((rangeInt (((x :: xs).getD i 0 : Nat) + 1 : Int) ((xs.getD i 0 : Nat) : Int)).map
          (fun j => pyComb ((m : Int) - j - 1) ((xs.length - (i + 1) : Nat) : Int))).sum)).sum := by
  subst hk
  induction xs generalizing a x with
  | nil => simp [rankFrom]
  | cons y ys ih =>
    rw [rankFrom]
    congr 1
    rw [ih (x + 1) y (fun z hz => hm z (List.mem_cons_of_mem _ hz))]
    simp only [List.length_cons]
    rw [List.range_succ_eq_map, List.map_cons, List.sum_cons, List.map_map]
    congr 1
    · have := rangeInt_sum m (x + 1) y ys.length (hm y (by simp))
      simp only [List.getD_cons_zero]
      push_cast at this ⊢
      rw [← this]
    · congr 1
      apply List.map_congr_left
      intro i _
      simp only [Function.comp, List.getD_cons_succ]
      have : ys.length + 1 - (i + 1 + 1) = ys.length - (i + 1) := by omega
      rw [Nat.succ_eq_add_one, this]

theorem getDistanceHash_eq (n : Nat) (hs bs : List Nat) (p : List Nat)
    (hp : List.zipWith (fun (b bh : Nat) => (b : Int) - (bh : Int)) bs (projectHash hs bs)
      = p.map (fun (y : Nat) => (y : Int)))
    (hh : hs.length ≤ n) (hlt : ∀ y ∈ p, y < n - hs.length) :
    getDistanceHash n hs bs = rankFrom (n - hs.length) 0 p := by
  unfold getDistanceHash
  have hlen : bs.length = p.length := by
    have := congrArg List.length hp
    simpa [projectHash] using this
  cases p with
  | nil =>
    have : bs = [] := List.eq_nil_of_length_eq_zero (by simpa using hlen)
    simp [this, rankFrom]
  | cons x xs =>
    have hne : bs ≠ [] := by intro h; simp [h] at hlen
    simp only [hne, if_false]
    rw [hp, rankFrom_eq_sum _ xs 0 x hlt xs.length rfl]
    have hfree : ((n : Int) - hs.length) = ((n - hs.length : Nat) : Int) := by omega
    rw [hfree, hlen]
    congr 1
    · have := rangeInt_sum (n - hs.length) 0 x xs.length (hlt x (by simp))
      rw [← this]
      simp
    · simp only [List.length_cons, Nat.add_sub_cancel]
      rw [List.range'_eq_map_range, List.map_map]
      congr 1
      apply List.map_congr_left
      intro i hi
      rw [List.mem_range] at hi
      simp only [Function.comp, List.map_cons]
      have e1 : 1 + i - 1 = i := by omega
      rw [e1, Nat.add_comm 1 i, List.getD_cons_succ]
      have e2 : ((xs.length + 1 : Nat) : Int) - ((i + 1 : Nat) : Int) - 1 = ((xs.length - (i + 1) : Nat) : Int) := by omega
      rw [e2]
      have e3 : (((x : Int) :: xs.map (fun (y : Nat) => (y : Int))).getD i 0) = (((x :: xs).getD i 0 : Nat) : Int) := by
        rw [← List.map_cons (f := fun (y : Nat) => (y : Int))]
        simp only [List.getD_eq_getElem?_getD, List.getElem?_map]
        cases (x :: xs)[i]? <;> simp
      have e4 : (xs.map (fun (y : Nat) => (y : Int))).getD i 0 = ((xs.getD i 0 : Nat) : Int) := by
        simp only [List.getD_eq_getElem?_getD, List.getElem?_map]
        cases xs[i]? <;> simp
      rw [e3, e4]

end TJ
