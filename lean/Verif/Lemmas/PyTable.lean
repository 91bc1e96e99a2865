/-
Helper lemmas: the table of a CPython set loses no element and holds none twice.
-/
import Verif.Model.CPythonSet
import Mathlib.Algebra.BigOperators.Group.Finset.Basic
import Mathlib.Data.Nat.ModEq
import Mathlib.Data.Nat.Prime.Basic
import Mathlib.Tactic.NormNum.GCD
import Mathlib.Tactic.Ring

namespace TJ
open Finset

/-! ### Reading a table -/

theorem mem_toList {t : PyTable} {x : Nat} : x ∈ t.toList ↔ ∃ i : Nat, t.slots[i]? = some (some x) := by
  unfold PyTable.toList
  rw [List.mem_filterMap]
  constructor
  · rintro ⟨o, h1, h2⟩
    obtain ⟨i, hi, h3⟩ := List.getElem_of_mem h1
    refine ⟨i, ?_⟩
    rw [List.getElem?_eq_getElem hi, h3]
    exact congrArg some h2
  · rintro ⟨i, h⟩
    exact ⟨some x, List.mem_of_getElem? h, rfl⟩

theorem toList_empty (n : Nat) : (PyTable.empty n).toList = [] := by
  unfold PyTable.toList PyTable.empty
  rw [List.filterMap_eq_nil_iff]
  intro o ho
  rw [List.eq_of_mem_replicate ho]
  rfl

/-- The elements after writing in a free slot. -/
theorem perm_set_slot : ∀ {l : List (Option Nat)} {j x : Nat}, l[j]? = some none →
    ((l.set j (some x)).filterMap id).Perm (x :: l.filterMap id) := by
  intro l
  induction l with
  | nil => intro j x h; simp at h
  | cons o l ih =>
    intro j x h
    cases j with
    | zero =>
      simp only [List.getElem?_cons_zero, Option.some.injEq] at h
      subst h
      simp
    | succ j =>
      rw [List.getElem?_cons_succ] at h
      rw [List.set_cons_succ]
      cases o with
      | none => simpa using ih h
      | some y =>
        simp only [List.filterMap_cons, id]
        exact ((ih h).cons y).trans (List.Perm.swap x y _)

theorem length_set_slot {l : List (Option Nat)} {j x : Nat} (h : l[j]? = some none) :
    ((l.set j (some x)).filterMap id).length = (l.filterMap id).length + 1 := (perm_set_slot h).length_eq

theorem getElem?_set_slot {l : List (Option Nat)} {j x : Nat} (h : l[j]? = some none) (i y : Nat) :
    (l.set j (some x))[i]? = some (some y) ↔ (i = j ∧ y = x) ∨ l[i]? = some (some y) := by
  rw [List.getElem?_set]
  have hj : j < l.length := (List.getElem?_eq_some_iff.1 h).1
  by_cases hij : j = i
  · subst hij
    rw [if_pos rfl, if_pos hj, h]
    simp only [Option.some.injEq, reduceCtorEq, or_false, true_and]
    exact eq_comm
  · rw [if_neg hij]
    constructor
    · exact fun h => Or.inr h
    · rintro (⟨rfl, _⟩ | h)
      · exact absurd rfl hij
      · exact h

/-! ### The probes `i -> 5 i + 1` run through all slots -/

/-- `1 + 5 + ... + 5^(d-1)`. -/
def geo (d : Nat) : Nat := ∑ j ∈ range d, 5 ^ j

theorem geo_succ (d : Nat) : geo (d + 1) = 5 * geo d + 1 := by
  induction d with
  | zero => simp [geo]
  | succ d ih =>
    have h1 : geo (d + 1 + 1) = geo (d + 1) + 5 ^ (d + 1) := Finset.sum_range_succ _ _
    have h2 : geo (d + 1) = geo d + 5 ^ d := Finset.sum_range_succ _ _
    rw [h1, pow_succ]
    omega

theorem geo_four (d : Nat) : 5 ^ d = 4 * geo d + 1 := by
  induction d with
  | zero => simp [geo]
  | succ d ih => rw [geo_succ, pow_succ]; omega

theorem geo_add (a b : Nat) : geo (a + b) = geo a + 5 ^ a * geo b := by
  induction b with
  | zero => simp [geo]
  | succ b ih =>
    have h1 : geo (a + b + 1) = geo (a + b) + 5 ^ (a + b) := Finset.sum_range_succ _ _
    have h2 : geo (b + 1) = geo b + 5 ^ b := Finset.sum_range_succ _ _
    rw [← add_assoc, h1, ih, h2, pow_add]; ring

theorem geo_even (e : Nat) : geo (2 * e) = geo e * (2 * (2 * geo e + 1)) := by
  rw [two_mul, geo_add, geo_four]; ring

theorem geo_parity (d : Nat) : geo d % 2 = d % 2 := by
  induction d with
  | zero => simp [geo]
  | succ d ih => rw [geo_succ]; omega

theorem geo_dvd (k d : Nat) (h : 2 ^ k ∣ geo d) : 2 ^ k ∣ d := by
  induction k generalizing d with
  | zero => simp
  | succ k ih =>
    have h2 : geo d % 2 = 0 := Nat.mod_eq_zero_of_dvd (dvd_trans (dvd_pow_self 2 (by omega)) h)
    rw [geo_parity] at h2
    obtain ⟨e, rfl⟩ := Nat.dvd_of_mod_eq_zero h2
    rw [geo_even, pow_succ, show geo e * (2 * (2 * geo e + 1)) = (geo e * (2 * geo e + 1)) * 2 by ring] at h
    have h3 := Nat.dvd_of_mul_dvd_mul_right (by norm_num) h
    have h4 : Nat.Coprime (2 ^ k) (2 * geo e + 1) := Nat.Coprime.pow_left _ (by rw [Nat.coprime_two_left]; exact ⟨_, rfl⟩)
    rw [pow_succ, mul_comm]
    exact Nat.mul_dvd_mul_left _ (ih e (h4.dvd_of_dvd_mul_right h3))

/-- The probes without perturbation. -/
def probe (m : Nat) (i : Nat) : Nat → Nat
  | 0 => i
  | n + 1 => probe m ((i * 5 + 1) % m) n

theorem probe_eq (m n i : Nat) (hi : i < m) : probe m i n = (5 ^ n * i + geo n) % m := by
  induction n generalizing i with
  | zero => simp [probe, geo, Nat.mod_eq_of_lt hi]
  | succ n ih =>
    rw [probe, ih _ (Nat.mod_lt _ (by omega))]
    have h2 : geo (n + 1) = geo n + 5 ^ n := Finset.sum_range_succ _ _
    rw [h2, pow_succ, Nat.add_mod, Nat.mul_mod, Nat.mod_mod, ← Nat.mul_mod, ← Nat.add_mod]
    congr 1
    ring

theorem probe_lt (m n i : Nat) (hi : i < m) : probe m i n < m := by
  rw [probe_eq m n i hi]
  exact Nat.mod_lt _ (by omega)

theorem probe_inj_le (k i a d : Nat) (hi : i < 2 ^ k) (hd : d < 2 ^ k)
    (h : probe (2 ^ k) i a = probe (2 ^ k) i (a + d)) : d = 0 := by
  rw [probe_eq _ _ _ hi, probe_eq _ _ _ hi] at h
  have e : 5 ^ (a + d) * i + geo (a + d) = (5 ^ a * i + geo a) + 5 ^ a * (geo d * (4 * i + 1)) := by
    rw [geo_add, pow_add, geo_four d]; ring
  rw [e] at h
  have h1 : 2 ^ k ∣ 5 ^ a * (geo d * (4 * i + 1)) :=
    (Nat.modEq_zero_iff_dvd).1 (Nat.ModEq.add_left_cancel' (5 ^ a * i + geo a) (by simpa [Nat.ModEq] using h.symm))
  have h2 : Nat.Coprime (2 ^ k) (5 ^ a) := Nat.Coprime.pow _ _ (by norm_num)
  have h3 : Nat.Coprime (2 ^ k) (4 * i + 1) := Nat.Coprime.pow_left _ (by rw [Nat.coprime_two_left]; exact ⟨2 * i, by ring⟩)
  exact Nat.eq_zero_of_dvd_of_lt (geo_dvd k d (h3.dvd_of_dvd_mul_right (h2.dvd_of_dvd_mul_left h1))) hd

/-- The probes reach every slot. -/
theorem probe_surj (k i s : Nat) (hi : i < 2 ^ k) (hs : s < 2 ^ k) : ∃ n < 2 ^ k, probe (2 ^ k) i n = s := by
  have hinj : Set.InjOn (probe (2 ^ k) i) (range (2 ^ k) : Finset Nat) := by
    intro a ha b hb h
    have ha := Finset.mem_range.1 (Finset.mem_coe.1 ha)
    have hb := Finset.mem_range.1 (Finset.mem_coe.1 hb)
    rcases le_total a b with hab | hab <;> obtain ⟨d, rfl⟩ := Nat.exists_eq_add_of_le hab
    · have := probe_inj_le k i a d hi (by omega) h; omega
    · have := probe_inj_le k i b d hi (by omega) h.symm; omega
  have himg : (range (2 ^ k)).image (probe (2 ^ k) i) = range (2 ^ k) := by
    refine Finset.eq_of_subset_of_card_le ?_ (by rw [Finset.card_image_of_injOn hinj])
    intro x hx
    obtain ⟨n, _, rfl⟩ := Finset.mem_image.1 hx
    exact Finset.mem_range.2 (probe_lt _ _ _ hi)
  have : s ∈ (range (2 ^ k)).image (probe (2 ^ k) i) := by rw [himg]; exact Finset.mem_range.2 hs
  obtain ⟨n, h1, h2⟩ := Finset.mem_image.1 this
  exact ⟨n, Finset.mem_range.1 h1, h2⟩

/-! ### The search for a slot -/

theorem scan_some {slots : List (Option Nat)} {x : Nat} : ∀ {n i j : Nat}, scanSlots slots x n i = some j →
    slots[j]? = some none ∨ slots[j]? = some (some x) := by
  intro n
  induction n with
  | zero => intro i j h; cases h
  | succ n ih =>
    intro i j h
    unfold scanSlots at h
    split at h
    · rename_i hs; cases h; exact Or.inl hs
    · rename_i y hs
      split_ifs at h with hy
      · cases h; subst hy; exact Or.inr hs
      · exact ih h
    · cases h

theorem find_some {slots : List (Option Nat)} {mask x : Nat} : ∀ {fuel i p j : Nat}, findSlot slots mask x fuel i p = some j →
    slots[j]? = some none ∨ slots[j]? = some (some x) := by
  intro fuel
  induction fuel with
  | zero => intro i p j h; cases h
  | succ n ih =>
    intro i p j h
    unfold findSlot at h
    split at h
    · rename_i hs; cases h; exact scan_some hs
    · exact ih h

theorem scan_none {slots : List (Option Nat)} {x n i : Nat} (hn : 1 ≤ n) 
    (h : scanSlots slots x n i = none) : slots[i]? ≠ some none := by
  obtain ⟨n, rfl⟩ : ∃ m, n = m + 1 := ⟨n - 1, by omega⟩
  intro hs
  unfold scanSlots at h
  rw [hs] at h
  cases h

theorem find_none_probe {slots : List (Option Nat)} {mask x : Nat} (hl : slots.length = mask + 1) : ∀ {fuel i : Nat},
    i < mask + 1 → findSlot slots mask x fuel i 0 = none → ∀ n < fuel, slots[probe (mask + 1) i n]? ≠ some none := by
  intro fuel
  induction fuel with
  | zero => intro i _ _ n hn; omega
  | succ f ih =>
    intro i hi h n hn
    unfold findSlot at h
    split at h
    · cases h
    · rename_i hs
      cases n with
      | zero => exact scan_none (by split_ifs <;> omega) hs
      | succ n =>
        simp only [Nat.zero_div, Nat.add_zero] at h
        exact ih (Nat.mod_lt _ (by omega)) h n (by omega)

theorem find_none_later {slots : List (Option Nat)} {mask x : Nat} : ∀ {n fuel i p : Nat}, i < mask + 1 → p < 32 ^ n →
    findSlot slots mask x (fuel + n) i p = none → ∃ i' < mask + 1, findSlot slots mask x fuel i' 0 = none := by
  intro n
  induction n with
  | zero =>
    intro fuel i p hi hp h
    obtain rfl : p = 0 := by simpa using hp
    exact ⟨i, hi, h⟩
  | succ n ih =>
    intro fuel i p hi hp h
    rw [← Nat.add_assoc] at h
    unfold findSlot at h
    split at h
    · cases h
    · exact ih (Nat.mod_lt _ (by omega)) (Nat.div_lt_of_lt_mul (by rw [pow_succ] at hp; omega)) h

/-- The search finds a slot as long as one is free. -/
theorem find_total {slots : List (Option Nat)} {mask k : Nat} (hm : mask + 1 = 2 ^ k) (hl : slots.length = mask + 1)
    (hfree : ∃ s : Nat, slots[s]? = some none) (x : Nat) :
    ∃ j, findSlot slots mask x (mask + 1 + x) (x % (mask + 1)) x = some j := by
  rw [← Option.isSome_iff_exists, ← Option.not_isNone, Bool.not_eq_true', Bool.eq_false_iff, ne_eq, Option.isNone_iff_eq_none]
  intro h
  obtain ⟨s, hs⟩ := hfree
  have hs' : s < mask + 1 := by rw [← hl]; exact (List.getElem?_eq_some_iff.1 hs).1
  obtain ⟨i, hi, h2⟩ := find_none_later (Nat.mod_lt _ (by omega)) (Nat.lt_pow_self (by norm_num)) h
  obtain ⟨n, hn, e⟩ := probe_surj k i s (by omega) (by omega)
  have := find_none_probe hl hi h2 n (by omega)
  rw [hm, e] at this
  exact this hs

/-! ### Writing in a free slot does not hide the elements -/

section
variable {slots : List (Option Nat)} {j x y : Nat}

theorem get_set_other (hj : slots[j]? = some none) {i : Nat} (hi : slots[i]? ≠ some none) :
    (slots.set j (some x))[i]? = slots[i]? :=
  List.getElem?_set_ne (by rintro rfl; exact hi hj)

theorem scan_set_none (hj : slots[j]? = some none) : ∀ {n i : Nat}, scanSlots slots y n i = none →
    scanSlots (slots.set j (some x)) y n i = none := by
  intro n
  induction n with
  | zero => intro i _; rfl
  | succ n ih =>
    intro i h
    unfold scanSlots at h ⊢
    cases hs : slots[i]? with
    | none => rw [get_set_other hj (by rw [hs]; simp), hs]
    | some o =>
      cases o with
      | none => rw [hs] at h; cases h
      | some z =>
        rw [get_set_other hj (by rw [hs]; simp), hs]
        rw [hs] at h
        dsimp only at h ⊢
        split_ifs at h ⊢ with hz
        exact ih h

theorem scan_set_some (hj : slots[j]? = some none) {a : Nat} (ha : slots[a]? = some (some y) ∨ (a = j ∧ y = x)) :
    ∀ {n i : Nat}, scanSlots slots y n i = some a → scanSlots (slots.set j (some x)) y n i = some a := by
  intro n
  induction n with
  | zero => intro i h; cases h
  | succ n ih =>
    intro i h
    unfold scanSlots at h ⊢
    cases hs : slots[i]? with
    | none => rw [hs] at h; cases h
    | some o =>
      rw [hs] at h
      cases o with
      | none =>
        cases h
        rcases ha with ha | ⟨rfl, rfl⟩
        · rw [ha] at hs; cases hs
        · rw [List.getElem?_set_self (List.getElem?_eq_some_iff.1 hj).1]
          simp
      | some z =>
        rw [get_set_other hj (by rw [hs]; simp), hs]
        dsimp only at h ⊢
        split_ifs at h ⊢ with hz
        · exact h
        · exact ih h

theorem find_set (hj : slots[j]? = some none) {a mask : Nat} (ha : slots[a]? = some (some y) ∨ (a = j ∧ y = x)) :
    ∀ {fuel i p : Nat}, findSlot slots mask y fuel i p = some a → findSlot (slots.set j (some x)) mask y fuel i p = some a := by
  intro fuel
  induction fuel with
  | zero => intro i p h; cases h
  | succ n ih =>
    intro i p h
    unfold findSlot at h ⊢
    cases hs : scanSlots slots y (if i + 9 ≤ mask then 10 else 1) i with
    | none => rw [hs] at h; rw [scan_set_none hj hs]; exact ih h
    | some b =>
      rw [hs] at h
      cases h
      rw [scan_set_some hj ha hs]
end

/-! ### Tables -/

/-- A table in which every element is found. -/
structure PyTable.Good (t : PyTable) : Prop where
  size : ∃ k, t.mask + 1 = 2 ^ k
  len : t.slots.length = t.mask + 1
  used : t.used = t.toList.length
  nodup : t.toList.Nodup
  found : ∀ y ∈ t.toList, ∃ j, findSlot t.slots t.mask y (t.mask + 1 + y) (y % (t.mask + 1)) y = some j ∧
    t.slots[j]? = some (some y)

theorem good_empty (k : Nat) : (PyTable.empty (2 ^ k)).Good ∧ (PyTable.empty (2 ^ k)).mask + 1 = 2 ^ k := by
  have h : (PyTable.empty (2 ^ k)).mask + 1 = 2 ^ k := by
    have := Nat.two_pow_pos k
    show 2 ^ k - 1 + 1 = 2 ^ k
    omega
  refine ⟨⟨⟨k, h⟩, ?_, ?_, ?_, ?_⟩, h⟩
  · rw [h]; exact List.length_replicate
  · rw [toList_empty]; rfl
  · rw [toList_empty]; exact List.nodup_nil
  · rw [toList_empty]; intro y hy; cases hy

theorem free_slot : ∀ {l : List (Option Nat)}, (l.filterMap id).length < l.length → ∃ s : Nat, l[s]? = some none := by
  intro l
  induction l with
  | nil => intro h; simp at h
  | cons o l ih =>
    intro h
    cases o with
    | none => exact ⟨0, rfl⟩
    | some y =>
      obtain ⟨s, hs⟩ := ih (by simpa using h)
      exact ⟨s + 1, by simpa using hs⟩

theorem PyTable.Good.put {t : PyTable} (h : t.Good) (hu : t.used ≤ t.mask) (x : Nat) :
    (t.put x).Good ∧ (t.put x).mask = t.mask ∧ (∀ y, y ∈ (t.put x).toList ↔ y = x ∨ y ∈ t.toList) ∧
      t.used ≤ (t.put x).used ∧ (t.put x).used ≤ t.used + 1 ∧ (x ∉ t.toList → (t.put x).used = t.used + 1) := by
  obtain ⟨k, hk⟩ := h.size
  obtain ⟨j, hj⟩ := find_total hk h.len (free_slot (by
    have := h.used
    unfold PyTable.toList at this
    rw [← this, h.len]
    omega)) x
  unfold PyTable.put
  rw [hj]
  dsimp only
  by_cases hs : t.slots[j]? = some none
  · have hnot : x ∉ t.toList := by
      intro hx
      obtain ⟨a, a1, a2⟩ := h.found x hx
      rw [hj] at a1
      cases a1
      rw [hs] at a2
      cases a2
    rw [if_pos hs]
    have hp : (PyTable.toList ⟨t.mask, t.slots.set j (some x), t.used + 1⟩).Perm (x :: t.toList) := perm_set_slot hs
    refine ⟨⟨⟨k, hk⟩, ?_, ?_, ?_, ?_⟩, rfl, ?_, Nat.le_succ _, le_rfl, fun _ => rfl⟩
    · show (t.slots.set j (some x)).length = _
      rw [List.length_set]; exact h.len
    · rw [hp.length_eq, List.length_cons, ← h.used]
    · exact hp.nodup_iff.2 (List.nodup_cons.2 ⟨hnot, h.nodup⟩)
    · intro y hy
      have hget := getElem?_set_slot (x := x) hs
      rcases List.mem_cons.1 (hp.mem_iff.1 hy) with rfl | hy
      · exact ⟨j, find_set hs (Or.inr ⟨rfl, rfl⟩) hj, (hget j y).2 (Or.inl ⟨rfl, rfl⟩)⟩
      · obtain ⟨a, a1, a2⟩ := h.found y hy
        exact ⟨a, find_set hs (Or.inl a2) a1, (hget a y).2 (Or.inr a2)⟩
    · intro y
      rw [hp.mem_iff, List.mem_cons]
  · rw [if_neg hs]
    have hx : x ∈ t.toList := mem_toList.2 ⟨j, (find_some hj).resolve_left hs⟩
    exact ⟨h, rfl, fun y => ⟨Or.inr, fun hy => hy.elim (fun e => e ▸ hx) id⟩, le_rfl, Nat.le_succ _, fun hn => absurd hx hn⟩

theorem good_fold : ∀ (l : List Nat) {t : PyTable}, t.Good → t.used + l.length ≤ t.mask + 1 →
    (l.foldl PyTable.put t).Good ∧ (l.foldl PyTable.put t).mask = t.mask ∧
      (∀ y, y ∈ (l.foldl PyTable.put t).toList ↔ y ∈ l ∨ y ∈ t.toList) ∧
      (l.foldl PyTable.put t).used ≤ t.used + l.length := by
  intro l
  induction l with
  | nil => intro t h _; exact ⟨h, rfl, by simp, le_rfl⟩
  | cons x l ih =>
    intro t h hl
    rw [List.length_cons] at hl
    obtain ⟨g1, g2, g3, g4, g5, g6⟩ := h.put (by omega) x
    obtain ⟨f1, f2, f3, f4⟩ := ih g1 (by omega)
    refine ⟨f1, f2.trans g2, ?_, ?_⟩
    · intro y
      rw [List.foldl_cons, f3, g3, List.mem_cons]
      tauto
    · rw [List.foldl_cons, List.length_cons]; omega

theorem newSize_spec (m : Nat) : ∀ (fuel s k : Nat), s = 2 ^ k → m < fuel + s → 1 ≤ s →
    ∃ k', newSize m fuel s = 2 ^ k' ∧ m < newSize m fuel s := by
  intro fuel
  induction fuel with
  | zero => intro s k h1 h2 _; exact ⟨k, h1, by simpa [newSize] using h2⟩
  | succ f ih =>
    intro s k h1 h2 h3
    unfold newSize
    split_ifs with h
    · exact ih (2 * s) (k + 1) (by rw [h1, pow_succ, mul_comm]) (by omega) (by omega)
    · exact ⟨k, h1, by omega⟩

/-- The elements put into a larger table. -/
theorem good_rebuild {t : PyTable} (h : t.Good) {n k : Nat} (hn : n = 2 ^ k) (hu : t.used < n) :
    (t.toList.foldl PyTable.put (PyTable.empty n)).Good ∧
      (∀ y, y ∈ (t.toList.foldl PyTable.put (PyTable.empty n)).toList ↔ y ∈ t.toList) ∧
      (t.toList.foldl PyTable.put (PyTable.empty n)).used ≤ (t.toList.foldl PyTable.put (PyTable.empty n)).mask := by
  subst hn
  obtain ⟨e1, e2⟩ := good_empty k
  have hz : (PyTable.empty (2 ^ k)).used = 0 := rfl
  obtain ⟨f1, f2, f3, f4⟩ := good_fold t.toList e1 (by rw [hz, ← h.used]; omega)
  refine ⟨f1, fun y => ?_, ?_⟩
  · rw [f3, toList_empty]; simp
  · rw [hz, ← h.used] at f4
    omega

theorem PyTable.Good.add {t : PyTable} (h : t.Good) (hu : t.used ≤ t.mask) (x : Nat) :
    (t.add x).Good ∧ (t.add x).used ≤ (t.add x).mask ∧ ∀ y, y ∈ (t.add x).toList ↔ y = x ∨ y ∈ t.toList := by
  obtain ⟨g1, g2, g3, g4, g5, _⟩ := h.put hu x
  unfold PyTable.add
  dsimp only
  by_cases hc : (t.put x).used = t.used ∨ (t.put x).used * 5 < (t.put x).mask * 3
  · rw [if_pos hc]
    exact ⟨g1, by omega, g3⟩
  · rw [if_neg hc]
    generalize hm : (if 50000 < (t.put x).used then (t.put x).used * 2 else (t.put x).used * 4) = m
    have hm2 : (t.put x).used ≤ m := by rw [← hm]; split_ifs <;> omega
    obtain ⟨k, k1, k2⟩ := newSize_spec m (m + 1) 8 3 (by norm_num) (by omega) (by norm_num)
    obtain ⟨r1, r2, r3⟩ := good_rebuild g1 k1 (by omega)
    exact ⟨r1, r3, fun y => (r2 y).trans (g3 y)⟩

theorem good_ofList (l : List Nat) : (PyTable.ofList l).Good ∧ ∀ y, y ∈ (PyTable.ofList l).toList ↔ y ∈ l := by
  have key : ∀ (l : List Nat) (t : PyTable), t.Good → t.used ≤ t.mask →
      (l.foldl PyTable.add t).Good ∧ ∀ y, y ∈ (l.foldl PyTable.add t).toList ↔ y ∈ l ∨ y ∈ t.toList := by
    intro l
    induction l with
    | nil => intro t h _; exact ⟨h, by simp⟩
    | cons x l ih =>
      intro t h hu
      obtain ⟨g1, g2, g3⟩ := h.add hu x
      obtain ⟨f1, f2⟩ := ih _ g1 g2
      refine ⟨f1, fun y => ?_⟩
      rw [List.foldl_cons, f2, g3, List.mem_cons]
      tauto
  obtain ⟨h1, h2⟩ := key l _ (good_empty 3).1 (Nat.zero_le _)
  refine ⟨h1, fun y => ?_⟩
  show y ∈ (l.foldl PyTable.add (PyTable.empty (2 ^ 3))).toList ↔ _
  rw [h2, toList_empty]
  simp

theorem good_inter (a b : List Nat) : ((PyTable.ofList a).inter (PyTable.ofList b)).Good ∧
    ∀ y, y ∈ ((PyTable.ofList a).inter (PyTable.ofList b)).toList ↔ y ∈ a ∧ y ∈ b := by
  unfold PyTable.inter
  split_ifs
  · refine ⟨(good_ofList _).1, fun y => ?_⟩
    rw [(good_ofList _).2, List.mem_filter, decide_eq_true_eq, (good_ofList a).2, (good_ofList b).2]
  · refine ⟨(good_ofList _).1, fun y => ?_⟩
    rw [(good_ofList _).2, List.mem_filter, decide_eq_true_eq, (good_ofList a).2, (good_ofList b).2, and_comm]

theorem PyTable.Good.copy {t : PyTable} (h : t.Good) : t.copy.Good ∧ ∀ y, y ∈ t.copy.toList ↔ y ∈ t.toList := by
  unfold PyTable.copy
  dsimp only
  generalize hm : (if 7 * 3 ≤ t.used * 5 then newSize (2 * t.used) (2 * t.used + 1) 8 else 8) = m
  obtain ⟨k, k1, k2⟩ : ∃ k, m = 2 ^ k ∧ t.used < m := by
    obtain ⟨k, k1, k2⟩ := newSize_spec (2 * t.used) (2 * t.used + 1) 8 3 (by norm_num) (by omega) (by norm_num)
    by_cases hc : 7 * 3 ≤ t.used * 5
    · rw [if_pos hc] at hm
      exact ⟨k, by rw [← hm, k1], by omega⟩
    · rw [if_neg hc] at hm
      exact ⟨3, by rw [← hm]; norm_num, by omega⟩
  by_cases hc : m = t.mask + 1
  · rw [if_pos hc]; exact ⟨h, fun _ => Iff.rfl⟩
  · rw [if_neg hc]
    obtain ⟨r1, r2, _⟩ := good_rebuild h k1 k2
    exact ⟨r1, r2⟩

theorem good_diff (a b : List Nat) : ((PyTable.ofList a).diff (PyTable.ofList b)).Nodup ∧
    ∀ y, y ∈ (PyTable.ofList a).diff (PyTable.ofList b) ↔ y ∈ a ∧ y ∉ b := by
  unfold PyTable.diff
  split_ifs
  · obtain ⟨c1, c2⟩ := (good_ofList a).1.copy
    refine ⟨c1.nodup.filter _, fun y => ?_⟩
    rw [List.mem_filter, decide_eq_true_eq, c2, (good_ofList a).2, (good_ofList b).2]
  · refine ⟨(good_ofList _).1.nodup, fun y => ?_⟩
    rw [(good_ofList _).2, List.mem_filter, decide_eq_true_eq, (good_ofList a).2, (good_ofList b).2]

end TJ
